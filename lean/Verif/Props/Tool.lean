import Verif.Lemmas.Run
import Verif.Spec.Tool
import Verif.Props.Options
import Verif.Props.Load
import Verif.Props.Cli

/-!
# Properties of whole runs of the tool (C87 – )
-/
namespace Verif.Props

open Verif.Spec Verif.Model Verif.Lemmas

/-! ## C87: runs are repeatable -/

theorem sameExt_of_tables {x x' : TextExt} (h : SameTables x x') : SameExt x x' := by
  obtain ⟨h1, h2, h3, h4, h5, h6, h7, h8⟩ := h
  refine ⟨x'.lookups, x'.sched, x'.sched_perm, ?_⟩
  obtain ⟨⟨_, _, _, _⟩, _, _, _, _, _, _, _⟩ := x
  obtain ⟨⟨_, _, _, _⟩, _, _, _, _, _, _, _⟩ := x'
  simp only at h1 h2 h3 h4 h5 h6 h7 h8
  subst h1 h2 h3 h4 h5 h6 h7 h8
  rfl

/-- The same loaded resources. -/
def SameLoaded (L L' : Loaded) : Prop :=
  SameVm L.vm L'.vm ∧ L'.confusables = L.confusables ∧ L'.book = L.book

theorem load_rel (x : LoadExt) (args : LoadArgs) (o o' : Orders) :
    Rel SameLoaded (x.load args o) (x.load args o') := by
  unfold LoadExt.load
  refine .bind_same _ fun m0 => .bind_same _ fun m1 => .bind_same _ fun m2 => .bind_same _ fun cs =>
    .bind_same _ fun book => (build_rel m2 o o').bind ?_
  intro a b hab
  exact ⟨hab, rfl, rfl⟩

theorem inputs_same {x x' : ToolExt} (hl : x'.load = x.load) (hi : x'.stdin = x.stdin) (used : Bool)
    (files : List (List Char)) : x'.inputs used files = x.inputs used files := by
  induction files generalizing used with
  | nil => rfl
  | cons f files ih => simp only [ToolExt.inputs, hl, hi, ih]

theorem printer_same {x x' : ToolExt} (h : SameSurroundings x x') (c : CommandLine) {L L' : Loaded}
    (hL : SameLoaded L L') (p p' : TextParams) (hp : p'.variant.freqWeight = p.variant.freqWeight) :
    ∃ s, x'.printer c L' p' = resorted (x.printer c L p) s := by
  obtain ⟨⟨s, hv, _⟩, _, hb⟩ := hL
  refine ⟨s, ?_⟩
  unfold ToolExt.printer resorted
  simp only [hv, hb, h.text.f64, h.showF, hp]

theorem config_same {x x' : ToolExt} (h : SameSurroundings x x') (c : CommandLine) {L L' : Loaded}
    (hL : SameLoaded L L') (w : Weights) : x'.config c L' w = x.config c L w := by
  obtain ⟨_, hc, hb⟩ := hL
  unfold ToolExt.config
  rw [hc, hb, h.editScript]

theorem runFiles_rel {f g : List (Option (List Char)) → Res (List Char)} (h : ∀ l, Rel Eq (f l) (g l))
    (json : Bool) (files : List (List (Option (List Char)))) :
    Rel Eq (runFiles json f files) (runFiles json g files) := by
  unfold runFiles
  refine (collectSeq_rel h files).bind ?_
  rintro a _ rfl
  exact .of_eq rfl

theorem learnInputs_rel {x x' : ToolExt} (h : SameSurroundings x x') {p p' : TextParams}
    (hp : SameParams p p') (cfg : TextConfig) (o : Printer) (n : Nat) (json multi strict : Bool)
    (inputs : List (List (Option (List Char)))) (s : HMap Nat (List Nat)) {m m' : Vm} (hm : SameVm m m') :
    Rel Eq (x.learnInputs cfg p o n json multi strict m inputs)
      (x'.learnInputs cfg p' (resorted o s) n json multi strict m' inputs) := by
  induction inputs generalizing m m' with
  | nil => exact .of_eq rfl
  | cons lines inputs ih =>
    simp only [ToolExt.learnInputs, ToolExt.processLearn]
    refine Rel.bind (R := fun r r' => SameVm r.1 r'.1 ∧ r.2 = r'.2) ?_ ?_
    · refine (learnRounds_rel (fun m m' hm => learnFrom_rel hm (sameExt_of_tables h.text) hp cfg
        (linesUntilError lines) strict x.orders x'.orders) n hm).bind ?_
      rintro ⟨m1, cs⟩ ⟨m1', cs'⟩ ⟨⟨s1, h1, h2⟩, _⟩
      have e : ({ resorted o s with vm := m1' } : Printer) =
          resorted ({ o with vm := m1 } : Printer) s1 := by
        rw [show m1' = _ from h1]
        rfl
      simp only at h1 ⊢
      rw [e, learned_sorted]
      refine .bind_same _ ?_
      rintro ⟨t, ws⟩
      exact ⟨⟨s1, h1, h2⟩, rfl⟩
    · rintro ⟨m1, t, ws⟩ ⟨m1', t', ws'⟩ ⟨h1, h2⟩
      cases h2
      refine (ih h1).bind ?_
      rintro a _ rfl
      exact .of_eq rfl

theorem search_rel {x x' : ToolExt} (h : SameSurroundings x x') {L L' : Loaded} (hL : SameLoaded L L')
    (cfg : TextConfig) {p p' : TextParams} (hp : SameParams p p') (o : Printer)
    (s : HMap Nat (List Nat)) (json nl perLine : Bool) (inputs : List (List (Option (List Char)))) :
    Rel Eq (runFiles json (o.processSearch (L.vm.findAllMatches x.text cfg p) json nl perLine) inputs)
      (runFiles json ((resorted o s).processSearch (L'.vm.findAllMatches x'.text cfg p') json nl perLine)
        inputs) :=
  runFiles_rel (fun l => processSearch_rel o s
    (fun i => findAllMatches_rel hL.1 (sameExt_of_tables h.text) hp cfg i) json nl perLine l) json inputs

theorem collectSeq_rel_mem {α β : Type} {f g : α → Res β} (l : List α) (h : ∀ a ∈ l, Rel Eq (f a) (g a)) :
    Rel Eq (collectSeq f l) (collectSeq g l) := by
  induction l with
  | nil => exact .of_eq rfl
  | cons a l ih =>
    simp only [collectSeq]
    refine (h a (List.mem_cons_self ..)).bind ?_
    rintro b _ rfl
    refine (ih fun a ha => h a (List.mem_cons_of_mem _ ha)).bind ?_
    rintro c _ rfl
    exact .of_eq rfl

/-- One file in query mode, with the given number of threads. -/
theorem query_rel {x x' : ToolExt} (h : SameSurroundings x x') {L L' : Loaded} (hL : SameLoaded L L')
    (cfg : TextConfig) {p p' : TextParams} (hp : SameParams p p') (o : Printer)
    (s : HMap Nat (List Nat)) (json : Bool) (lines : List (Option (List Char)))
    (hread : p'.singleThread = p.singleThread ∨ none ∉ lines) :
    Rel Eq
      ((if p.singleThread then o.process (L.vm.findVariants x.text.toExt cfg.toConfig p.variant) json 0
       else o.processPar (L.vm.findVariants x.text.toExt cfg.toConfig p.variant) x.text.sched json) lines)
      ((if p'.singleThread then (resorted o s).process
          (L'.vm.findVariants x'.text.toExt cfg.toConfig p'.variant) json 0
       else (resorted o s).processPar (L'.vm.findVariants x'.text.toExt cfg.toConfig p'.variant)
          x'.text.sched json) lines) := by
  have hv : p'.variant = p.variant := by obtain ⟨b, rfl⟩ := hp; rfl
  have hf : L'.vm.findVariants x'.text.toExt cfg.toConfig p'.variant =
      L.vm.findVariants x.text.toExt cfg.toConfig p.variant := by
    funext i
    rw [hv]
    exact findVariants_same hL.1 (sameExt_of_tables h.text) _ _ _
  rw [hf]
  generalize L.vm.findVariants x.text.toExt cfg.toConfig p.variant = find
  have hrefl : ∀ i, Rel Eq (find i) (find i) := fun i => .of_eq rfl
  have seq := process_rel o s hrefl json 0 lines
  have par : Rel Eq (o.processPar find x.text.sched json lines)
      ((resorted o s).processPar find x'.text.sched json lines) :=
    parLoop_rel o s hrefl x.text.sched_perm x'.text.sched_perm json _ 0 lines
  rcases hread with e | hr
  · rw [e]
    cases p.singleThread
    · exact par
    · exact seq
  · have cross := fun out => parallel_query o find x.text.sched x.text.sched_perm json lines hr out
    rw [rel_eq] at seq par ⊢
    intro out
    cases p.singleThread <;> cases p'.singleThread
    · exact par out
    · exact (cross out).trans (seq out)
    · exact (cross out).symm.trans (par out)
    · exact seq out

theorem mem_inputs {x : ToolExt} {used : Bool} {files : List (List Char)}
    {inputs : List (List (Option (List Char)))} (h : x.inputs used files = .ok inputs) :
    ∀ l ∈ inputs, l = [] ∨ l = x.stdin ∨ ∃ f ∈ files, isStdin f = false ∧ x.load.file f = some l := by
  induction files generalizing used inputs with
  | nil => cases h; simp
  | cons f files ih =>
    unfold ToolExt.inputs at h
    split at h
    · obtain ⟨rest, h1, h2⟩ := bind_ok.mp h
      cases pure_ok.mp h2
      intro l hl
      rcases List.mem_cons.mp hl with e | hl
      · cases used
        · exact .inr (.inl e)
        · exact .inl e
      · rcases ih h1 l hl with e | e | ⟨g, hg, e⟩
        · exact .inl e
        · exact .inr (.inl e)
        · exact .inr (.inr ⟨g, List.mem_cons_of_mem _ hg, e⟩)
    · rename_i hstd
      obtain ⟨lines, h0, h⟩ := bind_ok.mp h
      obtain ⟨rest, h1, h2⟩ := bind_ok.mp h
      cases pure_ok.mp h2
      intro l hl
      rcases List.mem_cons.mp hl with e | hl
      · refine .inr (.inr ⟨f, List.mem_cons_self .., by simpa using hstd, ?_⟩)
        rw [e]
        unfold LoadExt.open at h0
        cases hf : x.load.file f with
        | none => rw [hf] at h0; cases h0
        | some a => rw [hf] at h0; cases h0; rfl
      · rcases ih h1 l hl with e | e | ⟨g, hg, e⟩
        · exact .inl e
        · exact .inr (.inl e)
        · exact .inr (.inr ⟨g, List.mem_cons_of_mem _ hg, e⟩)

/-- The same options, but for those for the number of threads. -/
def SameOptions (c c' : CommandLine) : Prop :=
  c'.sub = c.sub ∧ c'.debug = c.debug ∧
    ∀ o, o ≠ .singleThread → o ≠ .interactive → c'.valuesOf o = c.valuesOf o

theorem SameOptions.valueOf {c c' : CommandLine} (h : SameOptions c c') (o : OptName)
    (h1 : o ≠ .singleThread := by decide) (h2 : o ≠ .interactive := by decide) :
    c'.valueOf o = c.valueOf o := by
  unfold CommandLine.valueOf
  rw [h.2.2 o h1 h2]

theorem SameOptions.isPresent {c c' : CommandLine} (h : SameOptions c c') (o : OptName)
    (h1 : o ≠ .singleThread := by decide) (h2 : o ≠ .interactive := by decide) :
    c'.isPresent o = c.isPresent o := by
  unfold CommandLine.isPresent
  rw [h.valueOf o h1 h2]

theorem SameOptions.parsed {c c' : CommandLine} (h : SameOptions c c') {α : Type} (o : OptName)
    (parse : List Char → Option α)
    (h1 : o ≠ .singleThread := by decide) (h2 : o ≠ .interactive := by decide) :
    c'.parsed o parse = c.parsed o parse := by
  unfold CommandLine.parsed
  rw [h.valueOf o h1 h2]

theorem SameOptions.parsedOr {c c' : CommandLine} (h : SameOptions c c') {α : Type} (o : OptName)
    (parse : List Char → Option α) (d : α)
    (h1 : o ≠ .singleThread := by decide) (h2 : o ≠ .interactive := by decide) :
    c'.parsedOr o parse d = c.parsedOr o parse d := by
  unfold CommandLine.parsedOr
  rw [h.isPresent o h1 h2, h.parsed o parse h1 h2]

theorem searchParameters_rel {c c' : CommandLine} (h : SameOptions c c')
    (parseF32 parseF64 : List Char → Option EFloat) :
    Rel (fun p p' => ∃ b, p' = { p with singleThread := b }) (c.searchParameters parseF32 parseF64)
      (c'.searchParameters parseF32 parseF64) := by
  unfold CommandLine.searchParameters
  rw [h.parsed .maxAnagramDistance, h.parsed .maxEditDistance, h.parsed .maxMatches,
    h.parsed .scoreThreshold, h.parsed .cutoffThreshold, h.parsedOr .maxNgramOrder,
    h.parsedOr .freqRanking, h.parsedOr .lmOrder, h.parsedOr .weightLm, h.parsedOr .weightVariantModel,
    h.parsedOr .weightContext, h.parsedOr .weightContextrules, h.parsedOr .maxSeq,
    h.isPresent .stopExact, h.isPresent .allowOverlap, h.isPresent .unicodeOffsets]
  iterate 13 refine .bind_same _ fun _ => ?_
  exact ⟨_, rfl⟩

theorem weights_same {c c' : CommandLine} (h : SameOptions c c') (parseF64 : List Char → Option EFloat) :
    c'.weights parseF64 = c.weights parseF64 := by
  unfold CommandLine.weights
  rw [h.parsed .weightLd, h.parsed .weightLcs, h.parsed .weightPrefix, h.parsed .weightSuffix,
    h.parsed .weightCase]

theorem finite_rel (p : SearchParameters) (b : Bool) :
    ({ p with singleThread := b } : SearchParameters).finite =
      p.finite.map fun q => { q with singleThread := b } := by
  unfold SearchParameters.finite
  simp only [bind, pure]
  cases p.maxAnagramDistance.finite <;> try rfl
  cases p.maxEditDistance.finite <;> try rfl
  cases p.scoreThreshold.finite <;> try rfl
  cases p.cutoffThreshold.finite <;> try rfl
  cases p.freqWeight.finite <;> try rfl
  cases p.variantmodelWeight.finite <;> try rfl
  cases p.lmWeight.finite <;> try rfl
  cases p.contextrulesWeight.finite <;> rfl

theorem _root_.Verif.Lemmas.Rel.map_output {r r' : Res (List Char)} (hr : Rel Eq r r') :
    Rel Eq (r >>= fun s => (pure (Outcome.output s []) : Res Outcome))
      (r' >>= fun s => (pure (Outcome.output s []) : Res Outcome)) :=
  hr.bind fun _ _ e => e ▸ .of_eq rfl

/-- The modes that search or learn, with other orders and number of threads. -/
theorem modes_rel {x x' : ToolExt} (h : SameSurroundings x x') {c c' : CommandLine}
    (hc : SameOptions c c') (files : List (List Char)) {L L' : Loaded} (hL : SameLoaded L L')
    (w : Weights) {p p' : TextParams} (hp : SameParams p p')
    (hread : (c.sub = .search ∨ c.sub = .learn) ∨ p'.singleThread = p.singleThread ∨
      none ∉ x.stdin ∧ ∀ f ∈ files, ∀ lines, x.load.file f = some lines → none ∉ lines) :
    Rel Eq (x.modes c files L w p) (x'.modes c' files L' w p') := by
  have hcfg : x'.config c' L' w = x.config c L w := by
    rw [← config_same h c hL w]
    unfold ToolExt.config
    rw [hc.isPresent .earlyConfusables]
  obtain ⟨s, hpr⟩ : ∃ s, x'.printer c' L' p' = resorted (x.printer c L p) s := by
    obtain ⟨s, hs⟩ := printer_same h c hL p p' (by obtain ⟨b, rfl⟩ := hp; rfl)
    refine ⟨s, ?_⟩
    rw [← hs]
    unfold ToolExt.printer
    rw [hc.isPresent .outputLexmatch]
  unfold ToolExt.modes
  rw [inputs_same h.load h.stdin, hc.1, hcfg]
  generalize hfs : (if files.isEmpty = true then ["-".toList] else files) = fs
  cases hin : x.inputs false fs with
  | error e => trivial
  | ok inputs =>
  have hq : ¬ (c.sub = .search ∨ c.sub = .learn) →
      Rel Eq (x.query c L (x.config c L w) p inputs) (x'.query c' L' (x.config c L w) p' inputs) := by
    intro hq
    unfold ToolExt.query
    rw [hpr, hc.isPresent .json]
    refine Rel.map_output ?_
    unfold runFiles
    refine (collectSeq_rel_mem inputs ?_).bind fun _ _ e => e ▸ .of_eq rfl
    intro lines hl
    refine query_rel h hL _ hp _ s _ lines ?_
    rcases hread with e | e | ⟨e1, e2⟩
    · exact absurd e hq
    · exact .inl e
    · refine .inr ?_
      rcases mem_inputs hin lines hl with e | e | ⟨f, hf, hns, e⟩
      · rw [e]; simp
      · rw [e]; exact e1
      · refine e2 f ?_ lines e
        cases files with
        | cons a as => rw [← hfs] at hf; exact hf
        | nil =>
          rw [← hfs] at hf
          rw [List.mem_singleton.mp hf] at hns
          cases hns
  show Rel Eq (match c.sub with | .learn => _ | .search => _ | _ => _)
    (match c.sub with | .learn => _ | .search => _ | _ => _)
  cases hs : c.sub with
  | query => exact hq (by simp [hs])
  | index => exact hq (by simp [hs])
  | testinput => exact hq (by simp [hs])
  | search =>
    simp only [ToolExt.search]
    rw [hpr, hc.isPresent .json, hc.isPresent .retainLinebreaks, hc.isPresent .perLine]
    exact Rel.map_output (search_rel h hL _ hp _ s _ _ _ inputs)
  | learn =>
    simp only [ToolExt.learn]
    rw [hpr, hc.isPresent .json, hc.isPresent .multiOutput, hc.isPresent .strict, hc.parsed .iterations]
    refine .bind_same _ fun n => ?_
    refine (learnInputs_rel h hp _ _ n _ _ _ inputs s hL.1).bind ?_
    rintro a _ rfl
    exact .of_eq rfl

/-- The same things to load. -/
def SameArgs (a b : LoadArgs) : Prop :=
  b.alphabet = a.alphabet ∧ b.resources = a.resources ∧ b.lm = a.lm ∧ b.confusables = a.confusables ∧
    b.contextrules = a.contextrules

theorem load_args {a b : LoadArgs} (h : SameArgs a b) (x : LoadExt) (o : Orders) :
    x.load b o = x.load a o := by
  obtain ⟨h1, h2, h3, h4, h5⟩ := h
  unfold LoadExt.load
  rw [h1, h2, h3, h4, h5]

/-- The line of a node. -/
def nodeLine (m : Vm) (n : Nat × AnaIndexNode) : List Char :=
  Nat.toDigits 10 n.1 ++
    (n.2.instances.flatMap fun id => '\t' :: ((m.decoder[id]?).map VocabValue.text).getD []) ++ ['\n']

theorem indexTexts_iff {m : Vm} {ids : List Nat} {s : List Char} :
    m.indexTexts ids = .ok s ↔ (∀ id ∈ ids, (m.decoder[id]?).isSome) ∧
      s = ids.flatMap fun id => '\t' :: ((m.decoder[id]?).map VocabValue.text).getD [] := by
  induction ids generalizing s with
  | nil =>
    constructor
    · intro h; cases h; simp
    · rintro ⟨-, rfl⟩; rfl
  | cons id ids ih =>
    rw [Vm.indexTexts]
    cases hd : m.decoder[id]? with
    | none =>
      constructor
      · intro h; cases h
      · rintro ⟨h, -⟩
        have := h id (List.mem_cons_self ..)
        rw [hd] at this
        cases this
    | some v =>
      simp only [List.forall_mem_cons, List.flatMap_cons, hd, Option.isSome_some, true_and,
        Option.map_some, Option.getD_some]
      constructor
      · intro h
        obtain ⟨rest, h1, h2⟩ := bind_ok.mp h
        cases pure_ok.mp h2
        obtain ⟨h3, h4⟩ := ih.mp h1
        exact ⟨h3, by rw [h4]⟩
      · rintro ⟨h3, h4⟩
        refine bind_ok.mpr ⟨_, ih.mpr ⟨h3, rfl⟩, ?_⟩
        rw [h4]
        simp [pure, Except.pure]

theorem indexLines_iff {m : Vm} {nodes : List (Nat × AnaIndexNode)} {s : List Char} :
    m.indexLines nodes = .ok s ↔ (∀ n ∈ nodes, ∀ id ∈ n.2.instances, (m.decoder[id]?).isSome) ∧
      s = ((nodes.filter fun n => !n.2.instances.isEmpty).map (nodeLine m)).flatten := by
  induction nodes generalizing s with
  | nil =>
    constructor
    · intro h; cases h; simp
    · rintro ⟨-, rfl⟩; rfl
  | cons n nodes ih =>
    obtain ⟨k, n⟩ := n
    rw [Vm.indexLines]
    simp only [List.forall_mem_cons]
    by_cases he : n.instances.isEmpty = true
    · rw [if_pos he, ih, List.filter_cons_of_neg (by simp [he])]
      rw [List.isEmpty_iff] at he
      simp [he]
    · rw [if_neg he, List.filter_cons_of_pos (by simpa using he), List.map_cons, List.flatten_cons]
      constructor
      · intro h
        obtain ⟨t, h1, h⟩ := bind_ok.mp h
        obtain ⟨rest, h2, h⟩ := bind_ok.mp h
        cases pure_ok.mp h
        obtain ⟨h3, h4⟩ := indexTexts_iff.mp h1
        obtain ⟨h5, h6⟩ := ih.mp h2
        refine ⟨⟨h3, h5⟩, ?_⟩
        rw [h4, h6]
        simp [nodeLine]
      · rintro ⟨⟨h3, h5⟩, h⟩
        refine bind_ok.mpr ⟨_, indexTexts_iff.mpr ⟨h3, rfl⟩, bind_ok.mpr ⟨_, ih.mpr ⟨h5, rfl⟩, ?_⟩⟩
        rw [h]
        simp [nodeLine, pure, Except.pure]

theorem indexOutput_rel {m m' : Vm} (hm : SameVm m m') (o o' : Orders) :
    Rel (fun s s' => SameLines (.output s []) (.output s' [])) (m.indexOutput o) (m'.indexOutput o') := by
  obtain ⟨si, rfl, -⟩ := hm
  have hperm : (o.index m.index).Perm (o'.index m.index) :=
    (o.index_perm _).trans (o'.index_perm _).symm
  have key : ∀ s s', m.indexOutput o = .ok s → s' = (((o'.index m.index).filter fun n =>
      !n.2.instances.isEmpty).map (nodeLine m)).flatten →
      ({ m with sortedindex := si } : Vm).indexOutput o' = .ok s' ∧
        SameLines (.output s []) (.output s' []) := by
    intro s s' h hs'
    obtain ⟨h1, h2⟩ := indexLines_iff.mp h
    refine ⟨indexLines_iff.mpr ⟨?_, hs'⟩, _, _, ?_, h2, hs', (hperm.filter _).map _, rfl⟩
    · intro n hn
      exact h1 n (hperm.mem_iff.mpr hn)
    · intro l hl
      obtain ⟨n, -, rfl⟩ := List.mem_map.mp hl
      simp [nodeLine]
  cases h : m.indexOutput o with
  | ok s =>
    obtain ⟨h1, h2⟩ := key s _ h rfl
    rw [h1]
    exact h2
  | error e =>
    cases h' : ({ m with sortedindex := si } : Vm).indexOutput o' with
    | error e' => trivial
    | ok s' =>
      exfalso
      obtain ⟨h1, -⟩ := indexLines_iff.mp h'
      have : m.indexOutput o = .ok _ := indexLines_iff.mpr
        ⟨fun n hn => h1 n (hperm.mem_iff.mp hn), rfl⟩
      rw [h] at this
      cases this

/-- The outcomes are equal, up to the order of lines for an index. -/
def SameOutcome (sub : Subcommand) (a b : Outcome) : Prop :=
  (sub = .index → SameLines a b) ∧ (sub ≠ .index → a = b)

theorem _root_.Verif.Lemmas.Rel.mono {α β : Type} {R Q : α → β → Prop} {r : Res α} {r' : Res β} (h : Rel R r r')
    (hRQ : ∀ a b, R a b → Q a b) : Rel Q r r' := by
  cases r <;> cases r' <;> first | exact hRQ _ _ h | exact h.elim | trivial

theorem main_rel {x x' : ToolExt} (h : SameSurroundings x x') {c c' : CommandLine}
    (hc : SameOptions c c') (hargs : Rel SameArgs (c.loadArgs x.pos) (c'.loadArgs x.pos))
    (files : List (List Char))
    (hread : c.sub ≠ .query ∨
      (c' = c ∨ none ∉ x.stdin ∧ ∀ f ∈ files, ∀ lines, x.load.file f = some lines → none ∉ lines)) :
    Rel (SameOutcome c.sub) (x.main c files) (x'.main c' files) := by
  have eqv : c.sub ≠ .index → ∀ {r r' : Res Outcome}, Rel Eq r r' → Rel (SameOutcome c.sub) r r' :=
    fun hi {_ _} hr => hr.mono fun a b e => ⟨fun e' => absurd e' hi, fun _ => e⟩
  unfold ToolExt.main CommandLine.debugLevel
  rw [h.parseF64, weights_same hc, hc.2.1, hc.1, h.pos, h.load, h.stdin]
  refine .bind_same _ fun ws => .bind_same _ fun _ => ?_
  by_cases ht : c.sub = .testinput
  · rw [if_pos ht, if_pos ht]
    refine eqv (by rw [ht]; decide) (hargs.bind ?_)
    rintro a b ⟨e, _⟩
    rw [e]
    exact .of_eq rfl
  · rw [if_neg ht, if_neg ht]
    unfold ToolExt.withModel
    rw [h.pos, h.load, h.parseF32, h.parseF64, hc.1]
    refine hargs.bind fun a b hab => ?_
    rw [load_args hab]
    refine (load_rel x.load a x.orders x'.orders).bind fun L L' hL => ?_
    have key : ∀ p p' : SearchParameters, (∃ b, p' = { p with singleThread := b }) →
        (c' = c → p' = p) →
        Rel (SameOutcome c.sub)
          (if (!cutoffAccepted p.cutoffThreshold) = true then (pure (Outcome.exit 2) : Res Outcome)
          else if c.sub = .index then do
            let s ← L.vm.indexOutput x.orders
            return .output s []
          else
            match finiteWeights ws, p.finite with
            | some w, some p => x.modes c files L w p
            | _, _ => return .unmodelled)
          (if (!cutoffAccepted p'.cutoffThreshold) = true then (pure (Outcome.exit 2) : Res Outcome)
          else if c.sub = .index then do
            let s ← L'.vm.indexOutput x'.orders
            return .output s []
          else
            match finiteWeights ws, p'.finite with
            | some w, some p => x'.modes c' files L' w p
            | _, _ => return .unmodelled) := by
      rintro p p' ⟨b, hb⟩ hcc
      have e1 : p'.cutoffThreshold = p.cutoffThreshold := by rw [hb]
      have e2 : p'.finite = p.finite.map fun q => { q with singleThread := b } := by
        rw [hb, finite_rel]
      rw [e1, e2]
      by_cases hcut : (!cutoffAccepted p.cutoffThreshold) = true
      · rw [if_pos hcut, if_pos hcut]
        exact ⟨fun _ => rfl, fun _ => rfl⟩
      · rw [if_neg hcut, if_neg hcut]
        by_cases hidx : c.sub = .index
        · rw [if_pos hidx, if_pos hidx]
          refine (indexOutput_rel hL.1 x.orders x'.orders).bind fun s s' hs => ?_
          exact ⟨fun _ => hs, fun e => absurd hidx e⟩
        · rw [if_neg hidx, if_neg hidx]
          refine eqv hidx ?_
          cases finiteWeights ws with
          | none => exact .of_eq rfl
          | some w =>
            cases hq : p.finite with
            | none => exact .of_eq rfl
            | some q =>
              refine modes_rel h hc files hL w ⟨b, rfl⟩ ?_
              rcases hread with e | e | e
              · refine .inl ?_
                cases hsub : c.sub <;> simp_all
              · refine .inr (.inl ?_)
                rw [hcc e, hq] at e2
                have := congrArg (Option.map TextParams.singleThread) e2
                simpa using this.symm
              · exact .inr (.inr e)
    have hp := searchParameters_rel hc x.parseF32 x.parseF64
    cases hr : c.searchParameters x.parseF32 x.parseF64 with
    | error e =>
      cases hr' : c'.searchParameters x.parseF32 x.parseF64 with
      | error e' => trivial
      | ok p' => rw [hr, hr'] at hp; exact hp.elim
    | ok p =>
      cases hr' : c'.searchParameters x.parseF32 x.parseF64 with
      | error e' => rw [hr, hr'] at hp; exact hp.elim
      | ok p' =>
        rw [hr, hr'] at hp
        refine key p p' hp ?_
        intro e
        rw [e, hr] at hr'
        exact (Except.ok.inj hr').symm

theorem rel_outcome {sub : Subcommand} {r r' : Res Outcome} (h : Rel (SameOutcome sub) r r')
    (hs : sub ≠ .index) (out : Outcome) : r = .ok out ↔ r' = .ok out :=
  rel_eq.mp (h.mono fun _ _ e => e.2 hs) out

theorem main_orders {x x' : ToolExt} (h : SameSurroundings x x') (c : CommandLine)
    (files : List (List Char)) : Rel (SameOutcome c.sub) (x.main c files) (x'.main c files) :=
  main_rel h ⟨rfl, rfl, fun _ _ _ => rfl⟩ (Rel.refl (fun _ => ⟨rfl, rfl, rfl, rfl, rfl⟩) _) files
    (.inr (.inl rfl))

/-- **C87**: what a run prints and writes depends on the command line, the files, standard input and the
tables only, not on the iteration orders of hash maps nor on the schedule of the threads. -/
theorem runs_repeatable {x x' : ToolExt} (h : SameSurroundings x x') (c : CommandLine)
    (files : List (List Char)) (hsub : c.sub ≠ .index) (out : Outcome) :
    x.main c files = .ok out ↔ x'.main c files = .ok out :=
  rel_outcome (main_orders h c files) hsub out

/-- **C87**: the lines of an index may come in any order, but they are always the same. -/
theorem index_runs_repeatable {x x' : ToolExt} (h : SameSurroundings x x') (c : CommandLine)
    (files : List (List Char)) (hsub : c.sub = .index) {out : Outcome}
    (hout : x.main c files = .ok out) : ∃ out', x'.main c files = .ok out' ∧ SameLines out out' := by
  have := main_orders h c files
  rw [hout] at this
  cases h' : x'.main c files with
  | error e => rw [h'] at this; exact this.elim
  | ok out' => rw [h'] at this; exact ⟨out', rfl, this.1 hsub⟩

theorem valuesOf_otherOptions {c c' : CommandLine} (hsub : c'.sub = c.sub)
    (h : otherOptions c' = otherOptions c) (o : OptName) (h1 : o ≠ .singleThread)
    (h2 : o ≠ .interactive) : c'.valuesOf o = c.valuesOf o := by
  have hv : ∀ l : OptName, l ≠ .singleThread → l ≠ .interactive → c'.values l = c.values l := by
    intro l h1 h2
    have e : ∀ c : CommandLine, c.values l = ((otherOptions c).filter fun g => g.1 = l).map Prod.snd := by
      intro c
      unfold CommandLine.values otherOptions
      rw [List.filter_filter]
      congr 1
      refine List.filter_congr fun g _ => ?_
      by_cases e : g.1 = l
      · simp [e, h1, h2]
      · simp [e]
    rw [e, e, h]
  unfold CommandLine.valuesOf
  rw [hsub]
  have hl : ∀ d, c.sub.declared.find? (fun d => d.name = o) = some d →
      d.long ≠ .singleThread ∧ d.long ≠ .interactive := by
    intro d hd
    have hn : d.name = o := by simpa using List.find?_some hd
    have hm := List.mem_of_find?_eq_some hd
    have : ∀ sub : Subcommand, ∀ d ∈ sub.declared, d.name ≠ .singleThread → d.name ≠ .interactive →
        d.long ≠ .singleThread ∧ d.long ≠ .interactive := by
      intro sub
      cases sub <;> decide
    exact this _ d hm (hn ▸ h1) (hn ▸ h2)
  cases hd : c.sub.declared.find? (fun d => d.name = o) with
  | none => rfl
  | some d =>
    obtain ⟨e1, e2⟩ := hl d hd
    simp only [hv d.long e1 e2]

/-- The same resources are named, whatever the options for threads. -/
theorem loadArgs_threads {x : ToolExt} (hpos : StrictMono x.pos) {c c' : CommandLine} (hc : Accepted c)
    (hc' : Accepted c') (hopt : SameOptions c c') (hsame : otherOptions c' = otherOptions c) :
    Rel SameArgs (c.loadArgs x.pos) (c'.loadArgs x.pos) := by
  have ha : ∀ c : CommandLine, (∃ args, c.loadArgs x.pos = .ok args) ↔ (c.valueOf .alphabet).isSome := by
    intro c
    unfold CommandLine.loadArgs
    cases c.valueOf .alphabet with
    | none => simp
    | some a => simp
  have hfm : ∀ {α : Type} (f : OptName × List Char → Option α),
      (∀ v, f (.singleThread, v) = none) → (∀ v, f (.interactive, v) = none) →
      c'.given.filterMap f = c.given.filterMap f := by
    intro α f h1 h2
    have e : ∀ c : CommandLine, c.given.filterMap f = (otherOptions c).filterMap f := by
      intro c
      unfold otherOptions
      generalize c.given = l
      induction l with
      | nil => rfl
      | cons g l ih =>
        obtain ⟨o, v⟩ := g
        by_cases e1 : o = .singleThread
        · subst e1; simp [h1, ih]
        · by_cases e2 : o = .interactive
          · subst e2; simp [h2, ih]
          · rw [List.filter_cons_of_pos (by simp [e1, e2]), List.filterMap_cons, List.filterMap_cons, ih]
    rw [e, e, hsame]
  cases hl : c.loadArgs x.pos with
  | error e =>
    cases hl' : c'.loadArgs x.pos with
    | error e' => trivial
    | ok b =>
      exfalso
      have h1 := (ha c').mp ⟨b, hl'⟩
      rw [hopt.valueOf .alphabet] at h1
      obtain ⟨a, h2⟩ := (ha c).mpr h1
      rw [hl] at h2
      cases h2
  | ok a =>
    cases hl' : c'.loadArgs x.pos with
    | error e' =>
      exfalso
      have h1 := (ha c).mp ⟨a, hl⟩
      rw [← hopt.valueOf .alphabet] at h1
      obtain ⟨b, h2⟩ := (ha c').mpr h1
      rw [hl'] at h2
      cases h2
    | ok b =>
      obtain ⟨h1, h2, h3, h4, h5⟩ := command_line_resources hpos hc hl
      obtain ⟨g1, g2, g3, g4, g5⟩ := command_line_resources hpos hc' hl'
      have hmem : ∀ c : CommandLine, ∀ v, (OptName.alphabet, v) ∈ c.given ↔
          (OptName.alphabet, v) ∈ otherOptions c := by
        intro c v
        simp [otherOptions]
      refine ⟨?_, ?_, ?_, ?_, ?_⟩
      · refine hc.2 .alphabet (by decide) _ _ ?_ h1
        rw [hmem, ← hsame, ← hmem]
        exact g1
      · rw [h2, g2]
        exact hfm _ (fun _ => rfl) (fun _ => rfl)
      · rw [h3, g3]
        exact hfm _ (fun _ => rfl) (fun _ => rfl)
      · rw [h4, g4]
        exact hfm _ (fun _ => rfl) (fun _ => rfl)
      · rw [h5, g5]
        exact hfm _ (fun _ => rfl) (fun _ => rfl)

/-- **C87**: nor does it depend on `--single-thread`, if the lines of a query can be read. -/
theorem threads_do_not_matter {x x' : ToolExt} (h : SameSurroundings x x') (hpos : StrictMono x.pos)
    {c c' : CommandLine} (hc : Accepted c) (hc' : Accepted c') (hsub : c'.sub = c.sub)
    (hdebug : c'.debug = c.debug) (hsame : otherOptions c' = otherOptions c) (files : List (List Char))
    (hread : c.sub = .query → none ∉ x.stdin ∧
      ∀ f ∈ files, ∀ lines, x.load.file f = some lines → none ∉ lines)
    (hidx : c.sub ≠ .index) (out : Outcome) :
    x.main c files = .ok out ↔ x'.main c' files = .ok out := by
  have hopt : SameOptions c c' := ⟨hsub, hdebug, valuesOf_otherOptions hsub hsame⟩
  refine rel_outcome (main_rel h hopt (loadArgs_threads hpos hc hc' hopt hsame) files ?_) hidx out
  by_cases hq : c.sub = .query
  · exact .inr (.inr (hread hq))
  · exact .inl hq

/-! ### An example -/

/-- The files of the example for loading, and an input with three lines. -/
def exTool : ToolExt :=
  { load := { exLoad with file := fun f => if f = ['q'] then some [some "ab".toList, some "bb".toList,
      some "b".toList] else exFile f }
    text := exText, parseF32 := exParse, parseF64 := exParse, pos := fun i => 2 * i, orders := exOrders
    showF := fun q => if q = 1 then ['1'] else "0.5".toList
    editScript := fun _ _ => [], stdin := [some "ba".toList] }

/-- With other orders. -/
def exTool' : ToolExt :=
  { exTool with
    orders := { index := List.reverse, unseen := List.reverse, index_perm := List.reverse_perm
                unseen_perm := List.reverse_perm }
    text := { exText with sched := List.range, sched_perm := fun _ => .refl _ } }

example : SameSurroundings exTool exTool' :=
  ⟨rfl, ⟨rfl, rfl, rfl, rfl, rfl, rfl, rfl, rfl⟩, rfl, rfl, rfl, rfl, rfl, rfl⟩

/-- `query --alphabet a --errors e --lexicon l` -/
def exQuery : CommandLine :=
  { sub := .query, debug := none
    given := [(.alphabet, ['a']), (.errors, ['e']), (.lexicon, ['l'])] }

/-- The same with `--single-thread`. -/
def exQuerySingle : CommandLine := { exQuery with given := (.singleThread, []) :: exQuery.given }

/-- `index --alphabet a --errors e --lexicon l` -/
def exIndex : CommandLine := { exQuery with sub := .index }

/-- The exact words have score 1; the other order and the option make no difference. -/
example : exTool.main exQuery [['q'], ['-']] =
      .ok (.output "ab\tab\t1\t\nbb\tb\t0.5\t\nb\tb\t1\t\nba\tb\t0.5\t\tab\t0.5\t\n".toList []) ∧
    exTool'.main exQuerySingle [['q'], ['-']] = exTool.main exQuery [['q'], ['-']] := by
  decide +kernel

example : exTool.main exIndex [] = .ok (.output "3\tb\n9\tbb\n6\tab\n".toList []) ∧
    exTool'.main exIndex [] = .ok (.output "6\tab\n9\tbb\n3\tb\n".toList []) := by
  decide +kernel

example : Accepted exQuerySingle ∧ otherOptions exQuerySingle = otherOptions exQuery ∧
    StrictMono exTool.pos := by
  refine ⟨⟨by decide, ?_⟩, by decide, fun a b h => by simp [exTool]; omega⟩
  intro o _ v w hv hw
  have : ∀ g ∈ exQuerySingle.given, ∀ g' ∈ exQuerySingle.given, g.1 = g'.1 → g.2 = g'.2 := by decide
  exact this _ hv _ hw rfl

end Verif.Props
