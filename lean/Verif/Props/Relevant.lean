import Verif.Spec.Relevant
import Verif.Props.Searched

/-!
# Which options make a difference
-/
namespace Verif.Props

open Verif.Model Verif.Spec Verif.Lemmas

/-- The command lines agree on the options that `P` holds for. -/
structure Agree (P : OptName → Bool) (c c' : CommandLine) : Prop where
  sub : c'.sub = c.sub
  given : (c'.given.filter fun g => P g.1) = c.given.filter fun g => P g.1

theorem Agree.values {P : OptName → Bool} {c c' : CommandLine} (h : Agree P c c') {o : OptName} (ho : P o = true) :
    c'.values o = c.values o := by
  have e : ∀ c : CommandLine, c.values o = ((c.given.filter fun g => P g.1).filter fun g => g.1 = o).map Prod.snd := by
    intro c
    unfold CommandLine.values
    rw [List.filter_filter]
    congr 1
    refine List.filter_congr fun g _ => ?_
    by_cases e : g.1 = o
    · simp [e, ho]
    · simp [e]
  rw [e, e, h.given]

theorem Agree.valuesOf {P : OptName → Bool} {c c' : CommandLine} (h : Agree P c c') {o : OptName}
    (ho : ∀ d ∈ c.sub.declared, d.name = o → P d.long = true) : c'.valuesOf o = c.valuesOf o := by
  unfold CommandLine.valuesOf
  rw [h.sub]
  cases hd : c.sub.declared.find? (fun d => d.name = o) with
  | none => rfl
  | some d =>
    have hl := ho d (List.mem_of_find?_eq_some hd) (by simpa using List.find?_some hd)
    simp only [h.values hl]

/-- The names of the declared options whose long forms `P` holds for. -/
def Covers (P : OptName → Bool) (sub : Subcommand) (os : List OptName) : Prop :=
  ∀ o ∈ os, ∀ d ∈ sub.declared, d.name = o → P d.long = true

instance (P : OptName → Bool) (sub : Subcommand) (os : List OptName) : Decidable (Covers P sub os) := by
  unfold Covers
  infer_instance

theorem Agree.valueOf {P : OptName → Bool} {c c' : CommandLine} (h : Agree P c c') {os : List OptName}
    (ho : Covers P c.sub os) {o : OptName} (hm : o ∈ os) : c'.valueOf o = c.valueOf o := by
  unfold CommandLine.valueOf
  rw [h.valuesOf (ho o hm)]

theorem Agree.isPresent {P : OptName → Bool} {c c' : CommandLine} (h : Agree P c c') {os : List OptName}
    (ho : Covers P c.sub os) {o : OptName} (hm : o ∈ os) : c'.isPresent o = c.isPresent o := by
  unfold CommandLine.isPresent
  rw [h.valueOf ho hm]

theorem Agree.parsed {P : OptName → Bool} {c c' : CommandLine} (h : Agree P c c') {os : List OptName}
    (ho : Covers P c.sub os) {o : OptName} (hm : o ∈ os) {α : Type} (parse : List Char → Option α) :
    c'.parsed o parse = c.parsed o parse := by
  unfold CommandLine.parsed
  rw [h.valueOf ho hm]

theorem Agree.parsedOr {P : OptName → Bool} {c c' : CommandLine} (h : Agree P c c') {os : List OptName}
    (ho : Covers P c.sub os) {o : OptName} (hm : o ∈ os) {α : Type} (parse : List Char → Option α) (d : α) :
    c'.parsedOr o parse d = c.parsedOr o parse d := by
  unfold CommandLine.parsedOr
  rw [h.isPresent ho hm, h.parsed ho hm]

theorem Agree.filterMap {P : OptName → Bool} {c c' : CommandLine} (h : Agree P c c') {α : Type}
    (f : OptName × List Char → Option α) (hf : ∀ g, P g.1 = false → f g = none) :
    c'.given.filterMap f = c.given.filterMap f := by
  have e : ∀ c : CommandLine, c.given.filterMap f = (c.given.filter fun g => P g.1).filterMap f := by
    intro c
    generalize c.given = l
    induction l with
    | nil => rfl
    | cons g l ih =>
      by_cases e : P g.1 = true
      · rw [List.filter_cons_of_pos (by simpa using e), List.filterMap_cons, List.filterMap_cons, ih]
      · rw [List.filter_cons_of_neg (by simpa using e), List.filterMap_cons, hf g (by simpa using e), ih]
  rw [e, e, h.given]

/-- What the parameters of the search depend on. -/
def parameterNames : List OptName :=
  [.maxAnagramDistance, .maxEditDistance, .maxMatches, .scoreThreshold, .cutoffThreshold, .maxNgramOrder,
   .freqRanking, .weightLm, .weightVariantModel, .weightContextrules, .maxSeq, .stopExact, .singleThread,
   .interactive, .debug, .unicodeOffsets]

theorem Agree.parameters {P : OptName → Bool} {c c' : CommandLine} (h : Agree P c c')
    (ho : Covers P c.sub parameterNames) {f32 f64 : List Char → Option EFloat} {q q' : SearchParameters}
    (hq : c.searchParameters f32 f64 = .ok q) (hq' : c'.searchParameters f32 f64 = .ok q') :
    q'.finite = q.finite ∧ q'.cutoffThreshold = q.cutoffThreshold := by
  unfold CommandLine.searchParameters at hq hq'
  obtain ⟨a1, e1, hq⟩ := bind_ok.mp hq
  obtain ⟨a2, e2, hq⟩ := bind_ok.mp hq
  obtain ⟨a3, e3, hq⟩ := bind_ok.mp hq
  obtain ⟨a4, e4, hq⟩ := bind_ok.mp hq
  obtain ⟨a5, e5, hq⟩ := bind_ok.mp hq
  obtain ⟨a6, e6, hq⟩ := bind_ok.mp hq
  obtain ⟨a7, e7, hq⟩ := bind_ok.mp hq
  obtain ⟨a8, e8, hq⟩ := bind_ok.mp hq
  obtain ⟨a9, e9, hq⟩ := bind_ok.mp hq
  obtain ⟨b1, k1, hq⟩ := bind_ok.mp hq
  obtain ⟨b2, k2, hq⟩ := bind_ok.mp hq
  obtain ⟨b3, k3, hq⟩ := bind_ok.mp hq
  obtain ⟨b4, k4, hq⟩ := bind_ok.mp hq
  obtain ⟨a1', e1', hq'⟩ := bind_ok.mp hq'
  obtain ⟨a2', e2', hq'⟩ := bind_ok.mp hq'
  obtain ⟨a3', e3', hq'⟩ := bind_ok.mp hq'
  obtain ⟨a4', e4', hq'⟩ := bind_ok.mp hq'
  obtain ⟨a5', e5', hq'⟩ := bind_ok.mp hq'
  obtain ⟨a6', e6', hq'⟩ := bind_ok.mp hq'
  obtain ⟨a7', e7', hq'⟩ := bind_ok.mp hq'
  obtain ⟨a8', e8', hq'⟩ := bind_ok.mp hq'
  obtain ⟨a9', e9', hq'⟩ := bind_ok.mp hq'
  obtain ⟨b1', k1', hq'⟩ := bind_ok.mp hq'
  obtain ⟨b2', k2', hq'⟩ := bind_ok.mp hq'
  obtain ⟨b3', k3', hq'⟩ := bind_ok.mp hq'
  obtain ⟨b4', k4', hq'⟩ := bind_ok.mp hq'
  rw [h.parsed ho (by decide), e1] at e1'
  rw [h.parsed ho (by decide), e2] at e2'
  rw [h.parsed ho (by decide), e3] at e3'
  rw [h.parsed ho (by decide), e4] at e4'
  rw [h.parsed ho (by decide), e5] at e5'
  rw [h.parsedOr ho (by decide), e6] at e6'
  rw [h.parsedOr ho (by decide), e7] at e7'
  rw [h.parsedOr ho (by decide), e9] at e9'
  rw [h.parsedOr ho (by decide), k1] at k1'
  rw [h.parsedOr ho (by decide), k3] at k3'
  rw [h.parsedOr ho (by decide), k4] at k4'
  cases e1'; cases e2'; cases e3'; cases e4'; cases e5'; cases e6'; cases e7'; cases e9'; cases k1'; cases k3'
  cases k4'
  rw [h.isPresent ho (o := .stopExact) (by decide), h.isPresent ho (o := .singleThread) (by decide),
    h.isPresent ho (o := .debug) (by decide), h.isPresent ho (o := .interactive) (by decide),
    h.isPresent ho (o := .unicodeOffsets) (by decide)] at hq'
  rw [← pure_ok.mp hq, ← pure_ok.mp hq']
  exact ⟨rfl, rfl⟩

theorem Agree.weights {P : OptName → Bool} {c c' : CommandLine} (h : Agree P c c')
    (ho : Covers P c.sub [.weightLd, .weightLcs, .weightPrefix, .weightSuffix, .weightCase])
    (f64 : List Char → Option EFloat) : c'.weights f64 = c.weights f64 := by
  unfold CommandLine.weights
  rw [h.parsed ho (o := .weightLd) (by decide), h.parsed ho (o := .weightLcs) (by decide),
    h.parsed ho (o := .weightPrefix) (by decide), h.parsed ho (o := .weightSuffix) (by decide),
    h.parsed ho (o := .weightCase) (by decide)]

theorem load_vm {x : LoadExt} {a a' : LoadArgs} {o : Orders} {L L' : Loaded} (h : x.load a o = .ok L)
    (h' : x.load a' o = .ok L') (h1 : a'.alphabet = a.alphabet) (h2 : a'.resources = a.resources)
    (h3 : a'.lm = a.lm) : L'.vm = L.vm ∧ (a'.confusables = a.confusables → L'.confusables = L.confusables ∧
      (a'.contextrules = a.contextrules → L' = L)) := by
  unfold LoadExt.load at h h'
  rw [h1, h2, h3] at h'
  obtain ⟨m1, e1, h⟩ := bind_ok.mp h
  obtain ⟨m2, e2, h⟩ := bind_ok.mp h
  obtain ⟨m3, e3, h⟩ := bind_ok.mp h
  obtain ⟨cs, e4, h⟩ := bind_ok.mp h
  obtain ⟨b, e5, h⟩ := bind_ok.mp h
  obtain ⟨m4, e6, h⟩ := bind_ok.mp h
  obtain ⟨n1, k1, h'⟩ := bind_ok.mp h'
  cases e1.symm.trans k1
  obtain ⟨n2, k2, h'⟩ := bind_ok.mp h'
  cases e2.symm.trans k2
  obtain ⟨n3, k3, h'⟩ := bind_ok.mp h'
  cases e3.symm.trans k3
  obtain ⟨cs', k4, h'⟩ := bind_ok.mp h'
  obtain ⟨b', k5, h'⟩ := bind_ok.mp h'
  obtain ⟨n4, k6, h'⟩ := bind_ok.mp h'
  cases e6.symm.trans k6
  rw [← pure_ok.mp h, ← pure_ok.mp h']
  refine ⟨rfl, fun hc => ?_⟩
  rw [hc] at k4
  cases e4.symm.trans k4
  refine ⟨rfl, fun hr => ?_⟩
  rw [hr] at k5
  cases e5.symm.trans k5
  rfl

/-- The files that are loaded. -/
theorem Agree.loads {P : OptName → Bool} {c c' : CommandLine} (h : Agree P c c') {pos : Nat → Nat}
    (hpos : StrictMono pos) (hc : Accepted c) (hc' : Accepted c')
    (hP : ∀ o ∈ [OptName.alphabet, .lexicon, .variants, .errors], P o = true) (hlm : P .lm = true ∨ .lm ∉ optionsOf c.sub)
    {a a' : LoadArgs} (ha : c.loadArgs pos = .ok a) (ha' : c'.loadArgs pos = .ok a') :
    a'.alphabet = a.alphabet ∧ a'.resources = a.resources ∧ a'.lm = a.lm ∧
      (P .confusables = true → a'.confusables = a.confusables) ∧
      (P .contextrules = true → a'.contextrules = a.contextrules) := by
  obtain ⟨h1, h2, h3, h4, h5⟩ := command_line_resources hpos hc ha
  obtain ⟨g1, g2, g3, g4, g5⟩ := command_line_resources hpos hc' ha'
  have one : ∀ o, P o = true → (c'.given.filterMap fun g => if g.1 = o then some g.2 else none) =
      c.given.filterMap fun g => if g.1 = o then some g.2 else none := by
    intro o ho
    refine h.filterMap _ fun g hg => ?_
    rw [if_neg]
    rintro rfl
    rw [ho] at hg
    cases hg
  refine ⟨?_, ?_, ?_, ?_, ?_⟩
  · refine hc.2 .alphabet (by decide) _ _ ?_ h1
    have : (OptName.alphabet, a'.alphabet) ∈ c'.given.filter fun g => P g.1 :=
      List.mem_filter.mpr ⟨g1, hP .alphabet (by decide)⟩
    rw [h.given] at this
    exact (List.mem_filter.mp this).1
  · rw [h2, g2]
    refine h.filterMap _ fun g hg => ?_
    obtain ⟨o, v⟩ := g
    have : o ∉ [OptName.alphabet, .lexicon, .variants, .errors] := by
      intro ho
      rw [hP o ho] at hg
      cases hg
    cases o <;> first | rfl | exact absurd (by decide) this
  · rw [h3, g3]
    rcases hlm with hlm | hlm
    · exact one _ hlm
    · have none' : ∀ c : CommandLine, Accepted c → .lm ∉ optionsOf c.sub →
          (c.given.filterMap fun g => if g.1 = .lm then some g.2 else none) = [] := by
        intro c hc hl
        rw [List.filterMap_eq_nil_iff]
        intro g hg
        rw [if_neg]
        intro e
        exact hl (e ▸ hc.1 g hg)
      rw [none' c hc hlm, none' c' hc' (h.sub ▸ hlm)]
  · intro hP
    rw [h4, g4]
    exact one _ hP
  · intro hP
    rw [h5, g5]
    exact one _ hP

/-! ## A query does not use tags -/

theorem othersTsv_tags (o : Printer) (tags : List (List Char)) (selected : Option Nat) (i : Nat)
    (rs : List VariantResult) : ({ o with tags } : Printer).othersTsv selected i rs = o.othersTsv selected i rs := by
  induction rs generalizing i with
  | nil => rfl
  | cons r rs ih =>
    rw [Printer.othersTsv, Printer.othersTsv, ih]
    rfl

theorem othersJson_tags (o : Printer) (tags : List (List Char)) (selected : Option Nat) (i : Nat) (b : Bool)
    (rs : List VariantResult) :
    ({ o with tags } : Printer).othersJson selected i b rs = o.othersJson selected i b rs := by
  induction rs generalizing i b with
  | nil => rfl
  | cons r rs ih =>
    rw [Printer.othersJson, Printer.othersJson, ih, ih]
    rfl

theorem query_tags (o : Printer) (tags : List (List Char)) (json : Bool) (input : List Char)
    (vs : List VariantResult) (n : Nat) :
    ({ o with tags } : Printer).query json input vs n = o.query json input vs n := by
  unfold Printer.query Printer.matchesJson Printer.matchesTsv Printer.tailJson Printer.variantsJson
    Printer.variantsTsv
  simp only [othersTsv_tags, othersJson_tags]
  rfl

theorem process_tags (o : Printer) (tags : List (List Char)) (find : List Char → Res (List VariantResult))
    (json : Bool) (n : Nat) (lines : List (Option (List Char))) :
    ({ o with tags } : Printer).process find json n lines = o.process find json n lines := by
  induction lines generalizing n with
  | nil => rfl
  | cons l lines ih =>
    cases l with
    | none => rw [Printer.process, Printer.process, ih]
    | some l =>
      rw [Printer.process, Printer.process]
      simp only [query_tags, ih]

theorem printBatch_tags (o : Printer) (tags : List (List Char)) (json : Bool) (n : Nat)
    (l : List (List Char × List VariantResult)) :
    ({ o with tags } : Printer).printBatch json n l = o.printBatch json n l := by
  induction l generalizing n with
  | nil => rfl
  | cons a l ih =>
    obtain ⟨a, vs⟩ := a
    rw [Printer.printBatch, Printer.printBatch]
    simp only [query_tags, ih]

theorem parLoop_tags (o : Printer) (tags : List (List Char)) (find : List Char → Res (List VariantResult))
    (sched : Nat → List Nat) (json : Bool) (fuel n : Nat) (lines : List (Option (List Char))) :
    ({ o with tags } : Printer).parLoop find sched json fuel n lines = o.parLoop find sched json fuel n lines := by
  induction fuel generalizing n lines with
  | zero => rfl
  | succ fuel ih =>
    rw [Printer.parLoop, Printer.parLoop]
    simp only [printBatch_tags, ih]

/-! ## C112 -/

theorem agree_in {os : List OptName} {c c' : CommandLine} (hsub : c'.sub = c.sub)
    (h : givenIn os c' = givenIn os c) : Agree (fun o => decide (o ∈ os)) c c' := ⟨hsub, h⟩

/-- A run with a model that ends with output. -/
theorem output_run {x : ToolExt} {c : CommandLine} {files : List (List Char)} {s : List Char}
    {fs : List (List FileWrite)} (ht : c.sub ≠ .testinput) (h : x.main c files = .ok (.output s fs)) :
    ∃ ws a L q, c.weights x.parseF64 = .ok ws ∧ c.loadArgs x.pos = .ok a ∧ x.load.load a x.orders = .ok L ∧
      c.searchParameters x.parseF32 x.parseF64 = .ok q ∧
      ((c.sub = .index ∧ L.vm.indexOutput x.orders = .ok s ∧ fs = []) ∨
        (c.sub ≠ .index ∧ ∃ w p, finiteWeights ws = some w ∧ q.finite = some p ∧
          x.modes c files L w p = .ok (.output s fs))) := by
  unfold ToolExt.main at h
  obtain ⟨ws, h1, h⟩ := bind_ok.mp h
  obtain ⟨_, _, h⟩ := bind_ok.mp h
  rw [if_neg ht] at h
  unfold ToolExt.withModel at h
  obtain ⟨a, h2, h⟩ := bind_ok.mp h
  obtain ⟨L, h3, h⟩ := bind_ok.mp h
  obtain ⟨q, h4, h⟩ := bind_ok.mp h
  refine ⟨ws, a, L, q, h1, h2, h3, h4, ?_⟩
  split at h
  · exact absurd (pure_ok.mp h) (by simp)
  · split at h
    · rename_i hi
      obtain ⟨t, h5, h⟩ := bind_ok.mp h
      cases pure_ok.mp h
      exact .inl ⟨hi, h5, rfl⟩
    · rename_i hi
      split at h
      · rename_i w p h5 h6
        exact .inr ⟨hi, w, p, h5, h6, h⟩
      · exact absurd (pure_ok.mp h) (by simp)

/-- **C112**: if two runs of a subcommand that end with output agree on the options that are relevant to it,
they print and write the same. -/
theorem irrelevant_options {x : ToolExt} (hpos : StrictMono x.pos) {c c' : CommandLine} (hc : Accepted c)
    (hc' : Accepted c') (hsub : c'.sub = c.sub) (hsame : givenIn (relevantTo c.sub) c' = givenIn (relevantTo c.sub) c)
    {files : List (List Char)} {s s' : List Char} {fs fs' : List (List FileWrite)}
    (h : x.main c files = .ok (.output s fs)) (h' : x.main c' files = .ok (.output s' fs')) :
    s' = s ∧ fs' = fs := by
  have hag := agree_in hsub hsame
  by_cases ht : c.sub = .testinput
  · -- only the alphabet
    unfold ToolExt.main at h h'
    obtain ⟨_, _, h⟩ := bind_ok.mp h
    obtain ⟨_, _, h⟩ := bind_ok.mp h
    obtain ⟨_, _, h'⟩ := bind_ok.mp h'
    obtain ⟨_, _, h'⟩ := bind_ok.mp h'
    rw [if_pos ht] at h
    rw [if_pos (hsub.trans ht)] at h'
    obtain ⟨a, e1, h⟩ := bind_ok.mp h
    obtain ⟨m, e2, h⟩ := bind_ok.mp h
    obtain ⟨t, e3, h⟩ := bind_ok.mp h
    obtain ⟨a', k1, h'⟩ := bind_ok.mp h'
    obtain ⟨m', k2, h'⟩ := bind_ok.mp h'
    obtain ⟨t', k3, h'⟩ := bind_ok.mp h'
    have ha : a'.alphabet = a.alphabet := by
      obtain ⟨h1, _⟩ := command_line_resources hpos hc e1
      obtain ⟨g1, _⟩ := command_line_resources hpos hc' k1
      refine hc.2 .alphabet (by decide) _ _ ?_ h1
      have : (OptName.alphabet, a'.alphabet) ∈ givenIn (relevantTo c.sub) c' :=
        List.mem_filter.mpr ⟨g1, show decide (OptName.alphabet ∈ relevantTo c.sub) = true by rw [ht]; decide⟩
      rw [hsame] at this
      exact (List.mem_filter.mp this).1
    rw [ha] at k2
    cases e2.symm.trans k2
    cases e3.symm.trans k3
    cases pure_ok.mp h
    cases pure_ok.mp h'
    exact ⟨rfl, rfl⟩
  obtain ⟨ws, a, L, q, e1, e2, e3, e4, e5⟩ := output_run ht h
  obtain ⟨ws', a', L', q', k1, k2, k3, k4, k5⟩ := output_run (hsub ▸ ht) h'
  have hP : ∀ o ∈ [OptName.alphabet, .lexicon, .variants, .errors], decide (o ∈ relevantTo c.sub) = true := by
    cases hs : c.sub with
    | testinput => exact absurd hs ht
    | _ => decide
  have hlm : decide (OptName.lm ∈ relevantTo c.sub) = true ∨ .lm ∉ optionsOf c.sub := by
    cases c.sub <;> decide
  obtain ⟨l1, l2, l3, l4, l5⟩ := hag.loads hpos hc hc' hP hlm e2 k2
  obtain ⟨v1, v2⟩ := load_vm e3 k3 l1 l2 l3
  rcases e5 with ⟨hi, e5, rfl⟩ | ⟨hi, w, p, e5, e6, e7⟩
  · rcases k5 with ⟨_, k5, rfl⟩ | ⟨hi', _⟩
    · rw [v1] at k5
      cases e5.symm.trans k5
      exact ⟨rfl, rfl⟩
    · exact absurd (hsub.trans hi) hi'
  rcases k5 with ⟨hi', _⟩ | ⟨_, w', p', k5, k6, k7⟩
  · exact absurd (hsub.symm.trans hi') hi
  have hcov : Covers (fun o => decide (o ∈ relevantTo c.sub)) c.sub (parameterNames ++
      [.weightLd, .weightLcs, .weightPrefix, .weightSuffix, .weightCase] ++
      [.earlyConfusables, .outputLexmatch, .json]) := by
    cases hs : c.sub with
    | testinput => exact absurd hs ht
    | index => exact absurd hs hi
    | _ => decide
  have sub_cov : ∀ {os}, os ⊆ (parameterNames ++
      [.weightLd, .weightLcs, .weightPrefix, .weightSuffix, .weightCase] ++
      [.earlyConfusables, .outputLexmatch, .json]) → Covers (fun o => decide (o ∈ relevantTo c.sub)) c.sub os :=
    fun h o ho => hcov o (h ho)
  have hw := hag.weights (sub_cov (by decide)) x.parseF64
  rw [hw] at k1
  cases e1.symm.trans k1
  cases e5.symm.trans k5
  have hp := (hag.parameters (sub_cov (by decide)) e4 k4).1
  rw [hp] at k6
  cases e6.symm.trans k6
  have hearly := hag.isPresent (sub_cov (by decide)) (os := [.earlyConfusables]) (o := .earlyConfusables) (by decide)
  have hlex := hag.isPresent (sub_cov (by decide)) (os := [.outputLexmatch]) (o := .outputLexmatch) (by decide)
  have hjson := hag.isPresent (sub_cov (by decide)) (os := [.json]) (o := .json) (by decide)
  obtain ⟨v3, v4⟩ := v2 (l4 (by
    cases hs : c.sub with
    | testinput => exact absurd hs ht
    | index => exact absurd hs hi
    | _ => decide))
  have fin : Except.ok (Outcome.output s fs) = (Except.ok (Outcome.output s' fs') : Res Outcome) →
      s' = s ∧ fs' = fs := by
    intro e
    cases e
    exact ⟨rfl, rfl⟩
  refine fin (e7.symm.trans (Eq.trans ?_ k7))
  unfold ToolExt.modes
  refine bind_congr fun inputs => ?_
  rw [hsub]
  cases hs : c.sub with
  | testinput => exact absurd hs ht
  | index => exact absurd hs hi
  | query =>
    show x.query _ _ _ _ _ = x.query _ _ _ _ _
    have t1 : (if p.singleThread then (x.printer c' L' p).process
          (L.vm.findVariants x.text.toExt (x.config c L w).toConfig p.variant) (c.isPresent .json) 0
        else (x.printer c' L' p).processPar (L.vm.findVariants x.text.toExt (x.config c L w).toConfig p.variant)
          x.text.sched (c.isPresent .json)) =
        if p.singleThread then (x.printer c L p).process
          (L.vm.findVariants x.text.toExt (x.config c L w).toConfig p.variant) (c.isPresent .json) 0
        else (x.printer c L p).processPar (L.vm.findVariants x.text.toExt (x.config c L w).toConfig p.variant)
          x.text.sched (c.isPresent .json) := by
      have e : x.printer c' L' p = { x.printer c L p with tags := L'.book.tags } := by
        unfold ToolExt.printer
        rw [hlex, v1]
      funext lines
      rw [e]
      split
      · exact process_tags _ _ _ _ _ _
      · exact parLoop_tags _ _ _ _ _ _ _ _
    have t2 : (x.config c' L' w).toConfig = (x.config c L w).toConfig := by
      unfold ToolExt.config
      rw [hearly, v3]
    unfold ToolExt.query
    dsimp only
    rw [v1, t2, hjson, t1]
  | search =>
    have hL : L' = L := v4 (l5 (by rw [hs]; decide))
    have hcov' : Covers (fun o => decide (o ∈ relevantTo c.sub)) c.sub [.perLine, .retainLinebreaks] := by
      rw [hs]; decide
    show x.search _ _ _ _ _ = x.search _ _ _ _ _
    unfold ToolExt.search ToolExt.printer ToolExt.config
    rw [hjson, hlex, hearly, hL, hag.isPresent hcov' (o := .perLine) (by decide),
      hag.isPresent hcov' (o := .retainLinebreaks) (by decide)]
  | learn =>
    have hL : L' = L := v4 (l5 (by rw [hs]; decide))
    have hcov' : Covers (fun o => decide (o ∈ relevantTo c.sub)) c.sub [.iterations, .multiOutput, .strict] := by
      rw [hs]; decide
    show x.learn _ _ _ _ _ = x.learn _ _ _ _ _
    unfold ToolExt.learn ToolExt.printer ToolExt.config
    rw [hjson, hlex, hearly, hL, hag.parsed hcov' (o := .iterations) (by decide),
      hag.isPresent hcov' (o := .multiOutput) (by decide), hag.isPresent hcov' (o := .strict) (by decide)]

theorem parsedOr_total {c : CommandLine} {n l : OptName} {α : Type} {parse : List Char → Option α} {d : α}
    (hd : ∀ e ∈ c.sub.declared, e.name = n → e.long = l ∧ ∀ v, e.default = some v → ∃ a, parse v = some a)
    (hv : ∀ v, (l, v) ∈ c.given → ∃ a, parse v = some a) : ∃ a, c.parsedOr n parse d = .ok a := by
  unfold CommandLine.parsedOr
  split
  · rename_i hp
    obtain ⟨v, hv'⟩ := Option.isSome_iff_exists.mp hp
    have : ∃ a, parse v = some a := by
      unfold CommandLine.valueOf CommandLine.valuesOf at hv'
      cases hf : c.sub.declared.find? (fun e => e.name = n) with
      | none =>
        rw [hf] at hv'
        cases hv'
      | some e =>
        rw [hf] at hv'
        obtain ⟨h1, h2⟩ := hd e (List.mem_of_find?_eq_some hf) (by simpa using List.find?_some hf)
        have hm := List.mem_of_head? hv'
        simp only at hm
        split at hm
        · exact h2 v (by simpa using hm)
        · rw [h1] at hm
          exact hv v (values_mem.mp hm)
    obtain ⟨a, ha⟩ := this
    exact ⟨a, parsed_iff.mpr ⟨v, hv', ha⟩⟩
  · exact ⟨d, rfl⟩

theorem idle_order {x : ToolExt} {c : CommandLine} (h : IdleNumbers x c) :
    ∃ n, c.parsedOr .lmOrder (parseUnsigned 255) 1 = .ok n := by
  refine parsedOr_total (l := .lmOrder) ?_ ?_
  · have : ∀ e ∈ c.sub.declared, e.name = .lmOrder → e.long = .lmOrder ∧ e.default = some "3".toList := by
      cases c.sub <;> decide
    intro e he hn
    refine ⟨(this e he hn).1, fun v hv => ⟨3, ?_⟩⟩
    rw [(this e he hn).2] at hv
    cases hv
    decide
  · intro v hv
    obtain ⟨n, hn⟩ := h.order v hv
    exact ⟨n, (parseUnsigned_iff _ _ _).mpr hn⟩

theorem idle_context {x : ToolExt} {c : CommandLine} (h : IdleNumbers x c) :
    ∃ y, c.parsedOr .weightContext x.parseF32 (.fin 1) = .ok y := by
  refine parsedOr_total (l := .weightContext) ?_ ?_
  · have : ∀ e ∈ c.sub.declared, e.name = .weightContext → e.long = .weightContext ∧
        e.default = some "0.0".toList := by
      cases c.sub <;> decide
    intro e he hn
    refine ⟨(this e he hn).1, fun v hv => ?_⟩
    rw [(this e he hn).2] at hv
    cases hv
    exact h.zero
  · exact h.context

theorem idle_debug {x : ToolExt} {c : CommandLine} (h : IdleNumbers x c) : ∃ n, c.debugLevel = .ok n := by
  unfold CommandLine.debugLevel
  rcases h.debug with h | ⟨v, n, h, hn, hle⟩
  · rw [h]
    exact ⟨0, by decide⟩
  · rw [h, Option.getD_some, (parseUnsigned_iff _ _ _).mpr hn]
    exact ⟨n, if_pos hle⟩

/-- The parameters, if the numbers that are never used are numbers. -/
theorem Agree.parameters_or {P : OptName → Bool} {c c' : CommandLine} (h : Agree P c c')
    (ho : Covers P c.sub parameterNames) {x : ToolExt} (hi : IdleNumbers x c) (hi' : IdleNumbers x c') :
    (∃ e, c.searchParameters x.parseF32 x.parseF64 = .error e ∧
        c'.searchParameters x.parseF32 x.parseF64 = .error e) ∨
      ∃ q q', c.searchParameters x.parseF32 x.parseF64 = .ok q ∧
        c'.searchParameters x.parseF32 x.parseF64 = .ok q' := by
  obtain ⟨n, hn⟩ := idle_order hi
  obtain ⟨n', hn'⟩ := idle_order hi'
  obtain ⟨y, hy⟩ := idle_context hi
  obtain ⟨y', hy'⟩ := idle_context hi'
  unfold CommandLine.searchParameters
  rw [h.parsed ho (o := .maxAnagramDistance) (by decide), h.parsed ho (o := .maxEditDistance) (by decide),
    h.parsed ho (o := .maxMatches) (by decide), h.parsed ho (o := .scoreThreshold) (by decide),
    h.parsed ho (o := .cutoffThreshold) (by decide), h.parsedOr ho (o := .maxNgramOrder) (by decide),
    h.parsedOr ho (o := .freqRanking) (by decide), h.parsedOr ho (o := .weightLm) (by decide),
    h.parsedOr ho (o := .weightVariantModel) (by decide), h.parsedOr ho (o := .weightContextrules) (by decide),
    h.parsedOr ho (o := .maxSeq) (by decide), hn, hn', hy, hy']
  cases c.parsed .maxAnagramDistance (parseThreshold x.parseF32) with
  | error e => exact .inl ⟨e, rfl, rfl⟩
  | ok _ =>
  cases c.parsed .maxEditDistance (parseThreshold x.parseF32) with
  | error e => exact .inl ⟨e, rfl, rfl⟩
  | ok _ =>
  cases c.parsed .maxMatches (parseUnsigned (2 ^ 64 - 1)) with
  | error e => exact .inl ⟨e, rfl, rfl⟩
  | ok _ =>
  cases c.parsed .scoreThreshold x.parseF64 with
  | error e => exact .inl ⟨e, rfl, rfl⟩
  | ok _ =>
  cases c.parsed .cutoffThreshold x.parseF64 with
  | error e => exact .inl ⟨e, rfl, rfl⟩
  | ok _ =>
  cases c.parsedOr .maxNgramOrder (parseUnsigned 255) 1 with
  | error e => exact .inl ⟨e, rfl, rfl⟩
  | ok _ =>
  cases c.parsedOr .freqRanking x.parseF32 (.fin 0) with
  | error e => exact .inl ⟨e, rfl, rfl⟩
  | ok _ =>
  cases c.parsedOr .weightLm x.parseF32 (.fin 1) with
  | error e => exact .inl ⟨e, rfl, rfl⟩
  | ok _ =>
  cases c.parsedOr .weightVariantModel x.parseF32 (.fin 1) with
  | error e => exact .inl ⟨e, rfl, rfl⟩
  | ok _ =>
  cases c.parsedOr .weightContextrules x.parseF32 (.fin 1) with
  | error e => exact .inl ⟨e, rfl, rfl⟩
  | ok _ =>
  cases c.parsedOr .maxSeq (parseUnsigned (2 ^ 64 - 1)) 250 with
  | error e => exact .inl ⟨e, rfl, rfl⟩
  | ok _ => exact .inr ⟨_, _, rfl, rfl⟩

theorem load_congr (x : LoadExt) (o : Orders) {a a' : LoadArgs} (h1 : a'.alphabet = a.alphabet)
    (h2 : a'.resources = a.resources) (h3 : a'.lm = a.lm) (h4 : a'.confusables = a.confusables)
    (h5 : a'.contextrules = a.contextrules) : x.load a' o = x.load a o := by
  unfold LoadExt.load
  rw [h1, h2, h3, h4, h5]

/-- **C112**: `--lm-order`, `--weight-context`, `--allow-overlap`, `--unicode-offsets` and `--progress` do not
make a difference, nor does the level of debugging. -/
theorem idle_options {x : ToolExt} (hpos : StrictMono x.pos) {c c' : CommandLine} (hc : Accepted c)
    (hc' : Accepted c') (hsub : c'.sub = c.sub) (hsame : givenOutside idleOptions c' = givenOutside idleOptions c)
    (hi : IdleNumbers x c) (hi' : IdleNumbers x c') (files : List (List Char)) :
    x.main c' files = x.main c files := by
  have hag : Agree (fun o => decide (o ∉ idleOptions)) c c' := ⟨hsub, hsame⟩
  have hcov : Covers (fun o => decide (o ∉ idleOptions)) c.sub (parameterNames ++
      [.weightLd, .weightLcs, .weightPrefix, .weightSuffix, .weightCase] ++
      [.alphabet, .earlyConfusables, .outputLexmatch, .json, .perLine, .retainLinebreaks, .iterations,
       .multiOutput, .strict]) := by
    cases c.sub <;> decide
  have sub_cov : ∀ {os}, os ⊆ (parameterNames ++
      [.weightLd, .weightLcs, .weightPrefix, .weightSuffix, .weightCase] ++
      [.alphabet, .earlyConfusables, .outputLexmatch, .json, .perLine, .retainLinebreaks, .iterations,
       .multiOutput, .strict]) → Covers (fun o => decide (o ∉ idleOptions)) c.sub os :=
    fun h o ho => hcov o (h ho)
  obtain ⟨d, hd⟩ := idle_debug hi
  obtain ⟨d', hd'⟩ := idle_debug hi'
  have hload : (∃ e, c.loadArgs x.pos = .error e ∧ c'.loadArgs x.pos = .error e) ∨
      ∃ a a', c.loadArgs x.pos = .ok a ∧ c'.loadArgs x.pos = .ok a' ∧ a'.alphabet = a.alphabet ∧
        x.load.load a' x.orders = x.load.load a x.orders := by
    cases hv : c.valueOf .alphabet with
    | none =>
      refine .inl ⟨.expect, ?_, ?_⟩
      · rw [CommandLine.loadArgs, hv]
      · rw [CommandLine.loadArgs, hag.valueOf hcov (by decide), hv]
    | some v =>
      obtain ⟨a, ha⟩ : ∃ a, c.loadArgs x.pos = .ok a := by
        rw [CommandLine.loadArgs, hv]
        exact ⟨_, rfl⟩
      obtain ⟨a', ha'⟩ : ∃ a, c'.loadArgs x.pos = .ok a := by
        rw [CommandLine.loadArgs, hag.valueOf hcov (by decide), hv]
        exact ⟨_, rfl⟩
      obtain ⟨l1, l2, l3, l4, l5⟩ := hag.loads hpos hc hc' (by decide) (.inl (by decide)) ha ha'
      exact .inr ⟨a, a', ha, ha', l1, load_congr _ _ l1 l2 l3 (l4 (by decide)) (l5 (by decide))⟩
  unfold ToolExt.main
  rw [hag.weights (sub_cov (by decide)), hd, hd', hsub]
  refine bind_congr fun ws => ?_
  show (if _ then _ else _) = if _ then _ else _
  split
  · rcases hload with ⟨e, e1, e2⟩ | ⟨a, a', e1, e2, e3, _⟩
    · rw [e1, e2]
    · rw [e1, e2]
      show (x.load.newModel a'.alphabet >>= _) = (x.load.newModel a.alphabet >>= _)
      rw [e3]
  · unfold ToolExt.withModel
    rcases hload with ⟨e, e1, e2⟩ | ⟨a, a', e1, e2, _, e4⟩
    · rw [e1, e2]
      rfl
    rw [e1, e2]
    show (x.load.load a' x.orders >>= _) = (x.load.load a x.orders >>= _)
    rw [e4]
    refine bind_congr fun L => ?_
    rcases hag.parameters_or (sub_cov (by decide)) hi hi' with ⟨e, e5, e6⟩ | ⟨q, q', e5, e6⟩
    · rw [e5, e6]
      rfl
    obtain ⟨e7, e8⟩ := hag.parameters (sub_cov (by decide)) e5 e6
    rw [e5, e6]
    show (if _ then _ else _) = if _ then _ else _
    rw [e8, hsub]
    split
    · rfl
    split
    · rfl
    rw [e7]
    have hm : ∀ w p, x.modes c' files L w p = x.modes c files L w p := by
      intro w p
      unfold ToolExt.modes ToolExt.learn ToolExt.search ToolExt.query ToolExt.printer ToolExt.config
      rw [hsub, hag.isPresent hcov (o := .json) (by decide), hag.isPresent hcov (o := .outputLexmatch) (by decide),
        hag.isPresent hcov (o := .earlyConfusables) (by decide), hag.isPresent hcov (o := .perLine) (by decide),
        hag.isPresent hcov (o := .retainLinebreaks) (by decide), hag.isPresent hcov (o := .multiOutput) (by decide),
        hag.isPresent hcov (o := .strict) (by decide), hag.parsed hcov (o := .iterations) (by decide)]
    simp only [hm]

/-- **C112**: asking for all matches, even if they overlap, does not change what a search prints. -/
theorem allow_overlap_ignored {x : ToolExt} (hpos : StrictMono x.pos) {c : CommandLine} (hc : Accepted c)
    (hsub : c.sub = .search ∨ c.sub = .learn) (hi : IdleNumbers x c) (hone : ¬ Given c .allowOverlap)
    (files : List (List Char)) :
    x.main { c with given := c.given ++ [(.allowOverlap, [])] } files = x.main c files := by
  refine idle_options (c' := { c with given := c.given ++ [(.allowOverlap, [])] }) hpos hc ⟨?_, ?_⟩ rfl ?_ hi ⟨?_, ?_, hi.zero, hi.debug⟩ files
  · intro g hg
    rcases List.mem_append.mp hg with hg | hg
    · exact hc.1 g hg
    · rw [List.mem_singleton.mp hg]
      rcases hsub with h | h <;> · show OptName.allowOverlap ∈ optionsOf c.sub; rw [h]; decide
  · intro o ho v w hv hw
    rcases List.mem_append.mp hv with hv | hv <;> rcases List.mem_append.mp hw with hw | hw
    · exact hc.2 o ho v w hv hw
    · cases List.mem_singleton.mp hw
      exact absurd ⟨v, hv⟩ hone
    · cases List.mem_singleton.mp hv
      exact absurd ⟨w, hw⟩ hone
    · cases List.mem_singleton.mp hv
      cases List.mem_singleton.mp hw
      rfl
  · unfold givenOutside
    rw [List.filter_append]
    exact List.append_nil _
  · intro v hv
    rcases List.mem_append.mp hv with hv | hv
    · exact hi.order v hv
    · exact absurd (List.mem_singleton.mp hv) (by simp)
  · intro v hv
    rcases List.mem_append.mp hv with hv | hv
    · exact hi.context v hv
    · exact absurd (List.mem_singleton.mp hv) (by simp)

/-! ### Examples -/

/-- `exQueryE` with `--contextrules r --progress` -/
def exQueryIdle : CommandLine :=
  { exQueryE with given := (.contextrules, ['r']) :: (.progress, []) :: exQueryE.given }

/-- Context rules make no difference to a query, nor do options that are idle. -/
example : exToolR.main exQueryIdle [] = exToolR.main exQueryE [] ∧
    ∀ s s' fs fs', exToolR.main exQueryE [] = .ok (.output s fs) →
      exToolR.main exQueryIdle [] = .ok (.output s' fs') → s' = s ∧ fs' = fs := by
  refine ⟨by decide +kernel, fun _ _ _ _ h h' => ?_⟩
  exact irrelevant_options (x := exToolR) (c := exQueryE) (c' := exQueryIdle) ex_pos
    (accepted_of (by decide) (by decide)) (accepted_of (by decide) (by decide)) rfl (by decide) h h'

/-- What is printed. -/
example : exToolR.main exQueryE [] = .ok (.output
    "ab b\tab\t0.5\t\t\"l;v\"\tb\t0.5\t\t\"e;l\"\nbb\tb\t0.5\t\t\"e;l\"\n".toList []) := by
  decide +kernel

/-- They do make a difference to a search: without them there are no tags. -/
example : exToolR.main exSearchMJ [] ≠ exToolR.main { exSearchMJ with
    given := exSearchMJ.given.filter fun g => g.1 ≠ .contextrules } [] := by
  decide +kernel

theorem exIdle {c : CommandLine} (h : c.debug = none)
    (hg : ∀ g ∈ c.given, (g.1 = .lmOrder → parseUnsigned 255 g.2 ≠ none) ∧
      (g.1 = .weightContext → exParse g.2 ≠ none)) : IdleNumbers exToolR c := by
  refine ⟨fun v hv => ?_, fun v hv => ?_, ⟨.fin 0, by decide +kernel⟩, .inl h⟩
  · obtain ⟨n, hn⟩ := Option.ne_none_iff_exists'.mp ((hg _ hv).1 rfl)
    exact ⟨n, (parseUnsigned_iff _ _ _).mp hn⟩
  · exact Option.ne_none_iff_exists'.mp ((hg _ hv).2 rfl)

/-- `exSearchM` with `--lm-order 7 --weight-context 0.5 --allow-overlap --unicode-offsets` -/
def exSearchIdle : CommandLine :=
  { exSearchM with given := (.lmOrder, ['7']) :: (.weightContext, "0.5".toList) ::
      (.allowOverlap, []) :: (.unicodeOffsets, []) :: exSearchM.given }

/-- A search with options that are idle. -/
example : exToolR.main exSearchIdle [['q'], ['-']] = exToolR.main exSearchM [['q'], ['-']] :=
  idle_options (x := exToolR) (c := exSearchM) (c' := exSearchIdle) ex_pos (accepted_of (by decide) (by decide))
    (accepted_of (by decide) (by decide)) rfl (by decide) (exIdle rfl (by decide +kernel))
    (exIdle rfl (by decide +kernel)) _

/-- Matches that overlap: `ab` and `b` are in the texts, and `ab b` is similar to `ab`. -/
example : exToolR.main { exSearchM with given := exSearchM.given ++ [(.allowOverlap, [])] } [['q'], ['-']] =
    exToolR.main exSearchM [['q'], ['-']] :=
  allow_overlap_ignored (x := exToolR) (c := exSearchM) ex_pos (accepted_of (by decide) (by decide)) (.inl rfl) (exIdle rfl (by decide +kernel))
    (not_given (by decide)) _

end Verif.Props
