import Verif.Spec.Options
import Verif.Props.Load

/-!
# C84: the options of the command line
-/
namespace Verif.Props

open Verif.Spec Verif.Model Verif.Lemmas

/-! ## Lookups -/

theorem values_mem {c : CommandLine} {o : OptName} {v : List Char} :
    v ∈ c.values o ↔ (o, v) ∈ c.given := by
  unfold CommandLine.values
  simp only [List.mem_map, List.mem_filter, decide_eq_true_eq]
  constructor
  · rintro ⟨⟨a, b⟩, ⟨h1, rfl⟩, rfl⟩; exact h1
  · intro h; exact ⟨(o, v), ⟨h, rfl⟩, rfl⟩

theorem values_nil {c : CommandLine} {o : OptName} : c.values o = [] ↔ ¬ Given c o := by
  rw [List.eq_nil_iff_forall_not_mem]
  simp only [values_mem, Given, not_exists]

/-- A declared option that is given at most once. -/
theorem valueOf_iff {c : CommandLine} {n l : OptName} {d : Option (List Char)} {v : List Char}
    (hd : c.sub.declared.find? (fun d => d.name = n) = some ⟨n, l, d⟩)
    (ho : ∀ v w, (l, v) ∈ c.given → (l, w) ∈ c.given → v = w) :
    c.valueOf n = some v ↔ (l, v) ∈ c.given ∨ (¬ Given c l ∧ d = some v) := by
  unfold CommandLine.valueOf CommandLine.valuesOf
  rw [hd]
  simp only
  split
  · rename_i h
    have hf := values_nil.mp h
    constructor
    · intro hv
      refine .inr ⟨hf, ?_⟩
      cases d with
      | none => cases hv
      | some d => exact hv
    · rintro (hv | ⟨_, rfl⟩)
      · exact absurd ⟨v, hv⟩ hf
      · rfl
  · rename_i h
    cases hc : c.values l with
    | nil => exact absurd hc h
    | cons w ws =>
      have hw : (l, w) ∈ c.given := values_mem.mp (by rw [hc]; simp)
      constructor
      · intro e; cases e; exact .inl hw
      · rintro (hv | ⟨hf, _⟩)
        · rw [ho v w hv hw]; rfl
        · exact absurd ⟨w, hw⟩ hf

theorem isPresent_undeclared {c : CommandLine} {n : OptName}
    (hd : c.sub.declared.find? (fun d => d.name = n) = none) : c.isPresent n = false := by
  unfold CommandLine.isPresent CommandLine.valueOf CommandLine.valuesOf
  rw [hd]
  rfl

theorem isPresent_flag {c : CommandLine} {n l : OptName}
    (hd : c.sub.declared.find? (fun d => d.name = n) = some ⟨n, l, none⟩) :
    c.isPresent n = true ↔ Given c l := by
  unfold CommandLine.isPresent CommandLine.valueOf CommandLine.valuesOf
  rw [hd]
  simp only
  split
  · rename_i h
    simpa using values_nil.mp h
  · rename_i h
    rw [values_nil, not_not] at h
    refine ⟨fun _ => h, fun _ => ?_⟩
    cases hc : c.values l with
    | nil => exact absurd h (values_nil.mp hc)
    | cons w ws => rfl

theorem parsed_iff {α : Type} {c : CommandLine} {n : OptName} {parse : List Char → Option α} {a : α} :
    c.parsed n parse = .ok a ↔ ∃ v, c.valueOf n = some v ∧ parse v = some a := by
  unfold CommandLine.parsed
  cases c.valueOf n with
  | none => simp
  | some v => cases h : parse v <;> simp [h]

/-- An option with a default value. -/
theorem parsed_default {α : Type} {c : CommandLine} {n l : OptName} {d : List Char}
    {parse : List Char → Option α} {a : α}
    (hd : c.sub.declared.find? (fun d => d.name = n) = some ⟨n, l, some d⟩)
    (ho : ∀ v w, (l, v) ∈ c.given → (l, w) ∈ c.given → v = w) :
    c.parsed n parse = .ok a ↔ ∃ v, InForce c l d v ∧ parse v = some a := by
  rw [parsed_iff]
  simp only [valueOf_iff hd ho, InForce, Option.some.injEq, eq_comm]

theorem parsedOr_default {α : Type} {c : CommandLine} {n l : OptName} {d : List Char}
    {parse : List Char → Option α} {a x : α}
    (hd : c.sub.declared.find? (fun d => d.name = n) = some ⟨n, l, some d⟩)
    (ho : ∀ v w, (l, v) ∈ c.given → (l, w) ∈ c.given → v = w) :
    c.parsedOr n parse x = .ok a ↔ ∃ v, InForce c l d v ∧ parse v = some a := by
  have : c.isPresent n = true := by
    unfold CommandLine.isPresent CommandLine.valueOf CommandLine.valuesOf
    rw [hd]
    simp only
    split
    · rfl
    · rename_i h
      cases hc : c.values l with
      | nil => exact absurd hc h
      | cons w ws => rfl
  rw [CommandLine.parsedOr, if_pos this, parsed_default hd ho]

theorem parsedOr_undeclared {α : Type} {c : CommandLine} {n : OptName}
    {parse : List Char → Option α} {a x : α}
    (hd : c.sub.declared.find? (fun d => d.name = n) = none) :
    c.parsedOr n parse x = .ok a ↔ a = x := by
  rw [CommandLine.parsedOr, if_neg (by rw [isPresent_undeclared hd]; simp)]
  simp [eq_comm]

theorem parsedOr_plain {α : Type} {c : CommandLine} {n l : OptName}
    {parse : List Char → Option α} {a x : α}
    (hd : c.sub.declared.find? (fun d => d.name = n) = some ⟨n, l, none⟩)
    (ho : ∀ v w, (l, v) ∈ c.given → (l, w) ∈ c.given → v = w) :
    c.parsedOr n parse x = .ok a ↔
      (∃ v, (l, v) ∈ c.given ∧ parse v = some a) ∨ (¬ Given c l ∧ a = x) := by
  unfold CommandLine.parsedOr
  split
  · rename_i h
    rw [isPresent_flag hd] at h
    rw [parsed_iff]
    simp only [valueOf_iff hd ho, reduceCtorEq, and_false, or_false]
    constructor
    · exact .inl
    · rintro (h' | ⟨h', _⟩)
      · exact h'
      · exact absurd h h'
  · rename_i h
    rw [isPresent_flag hd] at h
    constructor
    · intro e; cases e; exact .inr ⟨h, rfl⟩
    · rintro (⟨v, h', _⟩ | ⟨_, rfl⟩)
      · exact absurd ⟨v, h'⟩ h
      · rfl

/-- The thresholds of C66 in one. -/
theorem thresholdText_iff (parseF32 : List Char → Option EFloat)
    (hf : ∀ s, ';' ∈ s → parseF32 s = none) (s : List Char) (t : ParsedThreshold) :
    parseThreshold parseF32 s = some t ↔ ThresholdText parseF32 s t := by
  constructor
  · intro h
    cases t with
    | absolute n => exact .absolute ((threshold_absolute_iff _ _ _).mp h)
    | ratio x =>
      obtain ⟨h1, h2, q, rfl, h3, h4⟩ := (threshold_ratio_iff _ hf _ _).mp h
      exact .ratio h1 h2 h3 h4
    | ratioWithLimit x n =>
      obtain ⟨a, b, rfl, h1, h2⟩ := (threshold_limit_partial _ hf _ _ _).mp h
      exact .limit h1 h2
  · rintro (h | ⟨h1, h2, h3, h4⟩ | ⟨h1, h2⟩)
    · exact (threshold_absolute_iff _ _ _).mpr h
    · exact (threshold_ratio_iff _ hf _ _).mpr ⟨h1, h2, _, rfl, h3, h4⟩
    · exact (threshold_limit_partial _ hf _ _ _).mpr ⟨_, _, rfl, h1, h2⟩

/-! ## C84 -/

/-- **C84**: the offsets are never in code points, whatever is asked for. -/
theorem unicode_offsets_ignored {parseF32 parseF64 : List Char → Option EFloat} {c : CommandLine}
    {p : SearchParameters} (h : c.searchParameters parseF32 parseF64 = .ok p) :
    p.unicodeoffsets = false := by
  unfold CommandLine.searchParameters at h
  iterate 13 obtain ⟨_, _, h⟩ := bind_ok.mp h
  cases pure_ok.mp h
  refine isPresent_undeclared ?_
  cases c.sub <;> rfl

/-- A value that is present for each field. -/
theorem searchParameters_iff {parseF32 parseF64 : List Char → Option EFloat} {c : CommandLine}
    {p : SearchParameters} :
    c.searchParameters parseF32 parseF64 = .ok p ↔
      c.parsed .maxAnagramDistance (parseThreshold parseF32) = .ok p.maxAnagramDistance ∧
      c.parsed .maxEditDistance (parseThreshold parseF32) = .ok p.maxEditDistance ∧
      c.parsed .maxMatches (parseUnsigned (2 ^ 64 - 1)) = .ok p.maxMatches ∧
      c.parsed .scoreThreshold parseF64 = .ok p.scoreThreshold ∧
      c.parsed .cutoffThreshold parseF64 = .ok p.cutoffThreshold ∧
      c.parsedOr .maxNgramOrder (parseUnsigned 255) 1 = .ok p.maxNgram ∧
      c.parsedOr .freqRanking parseF32 (.fin 0) = .ok p.freqWeight ∧
      c.parsedOr .lmOrder (parseUnsigned 255) 1 = .ok p.lmOrder ∧
      c.parsedOr .weightLm parseF32 (.fin 1) = .ok p.lmWeight ∧
      c.parsedOr .weightVariantModel parseF32 (.fin 1) = .ok p.variantmodelWeight ∧
      c.parsedOr .weightContext parseF32 (.fin 1) = .ok p.contextWeight ∧
      c.parsedOr .weightContextrules parseF32 (.fin 1) = .ok p.contextrulesWeight ∧
      c.parsedOr .maxSeq (parseUnsigned (2 ^ 64 - 1)) 250 = .ok p.maxSeq ∧
      (p.stopCriterion = if c.isPresent .stopExact then .stopAtExactMatch else .exhaustive) ∧
      p.singleThread = (c.isPresent .singleThread || c.isPresent .debug || c.isPresent .interactive) ∧
      p.consolidateMatches = !c.isPresent .allowOverlap ∧
      p.unicodeoffsets = c.isPresent .unicodeOffsets := by
  constructor
  · intro h
    unfold CommandLine.searchParameters at h
    obtain ⟨_, h1, h⟩ := bind_ok.mp h
    obtain ⟨_, h2, h⟩ := bind_ok.mp h
    obtain ⟨_, h3, h⟩ := bind_ok.mp h
    obtain ⟨_, h4, h⟩ := bind_ok.mp h
    obtain ⟨_, h5, h⟩ := bind_ok.mp h
    obtain ⟨_, h6, h⟩ := bind_ok.mp h
    obtain ⟨_, h7, h⟩ := bind_ok.mp h
    obtain ⟨_, h8, h⟩ := bind_ok.mp h
    obtain ⟨_, h9, h⟩ := bind_ok.mp h
    obtain ⟨_, h10, h⟩ := bind_ok.mp h
    obtain ⟨_, h11, h⟩ := bind_ok.mp h
    obtain ⟨_, h12, h⟩ := bind_ok.mp h
    obtain ⟨_, h13, h⟩ := bind_ok.mp h
    cases pure_ok.mp h
    exact ⟨h1, h2, h3, h4, h5, h6, h7, h8, h9, h10, h11, h12, h13, rfl, rfl, rfl, rfl⟩
  · rintro ⟨h1, h2, h3, h4, h5, h6, h7, h8, h9, h10, h11, h12, h13, e1, e2, e3, e4⟩
    unfold CommandLine.searchParameters
    rw [h1, h2, h3, h4, h5, h6, h7, h8, h9, h10, h11, h12, h13]
    simp only [bind, Except.bind, pure, Except.pure, ← e1, ← e2, ← e3, ← e4]

/-- An option of texts. -/
theorem text_option {α : Type} {c : CommandLine} {o : OptName} {d : List Char}
    {parse : List Char → Option α} {a x : α}
    (h1 : Subcommand.search.declared.find? (fun d => d.name = o) = some ⟨o, o, some d⟩)
    (h2 : Subcommand.learn.declared.find? (fun d => d.name = o) = some ⟨o, o, some d⟩)
    (h3 : commonArguments.find? (fun d => d.name = o) = none)
    (ho : ∀ v w, (o, v) ∈ c.given → (o, w) ∈ c.given → v = w) :
    c.parsedOr o parse x = .ok a ↔
      (c.sub = .search ∨ c.sub = .learn → ∃ v, InForce c o d v ∧ parse v = some a) ∧
      (¬ (c.sub = .search ∨ c.sub = .learn) → a = x) := by
  by_cases hs : c.sub = .search ∨ c.sub = .learn
  · rw [parsedOr_default (d := d) (by rcases hs with e | e <;> rw [e] <;> assumption) ho]
    exact ⟨fun h => ⟨fun _ => h, fun h' => absurd hs h'⟩, fun h => h.1 hs⟩
  · rw [parsedOr_undeclared (by
      cases e : c.sub with
      | search => exact absurd (.inl e) hs
      | learn => exact absurd (.inr e) hs
      | query => exact h3
      | index => exact h3
      | testinput => exact h3)]
    exact ⟨fun h => ⟨fun h' => absurd h' hs, fun _ => h⟩, fun h => h.2 hs⟩

/-- **C84**: the tool accepts the parameters of a command line exactly if all values can be read, and
searches with the parameters that are asked for; but `--unicode-offsets` is ignored. -/
theorem command_line_parameters_partial {parseF32 parseF64 : List Char → Option EFloat}
    (hf : ∀ s, ';' ∈ s → parseF32 s = none) {c : CommandLine} (hc : Accepted c)
    (p : SearchParameters) :
    c.searchParameters parseF32 parseF64 = .ok p ↔
      Request parseF32 parseF64 c p ∧ p.unicodeoffsets = false := by
  have ho : ∀ o, o ∉ repeatable → ∀ v w, (o, v) ∈ c.given → (o, w) ∈ c.given → v = w := hc.2
  have hall : ∀ o l d, commonArguments.find? (fun e => e.name = o) = some ⟨o, l, d⟩ →
      c.sub.declared.find? (fun e => e.name = o) = some ⟨o, l, d⟩ := by
    intro o l d h
    cases c.sub with
    | search => show (commonArguments ++ _).find? _ = _; rw [List.find?_append, h]; rfl
    | learn => show (commonArguments ++ _ ++ _).find? _ = _; rw [List.append_assoc, List.find?_append, h]; rfl
    | query => exact h
    | index => exact h
    | testinput => exact h
  have hover : c.isPresent .allowOverlap = true ↔ Given c .allowOverlap := by
    by_cases hs : c.sub = .search ∨ c.sub = .learn
    · exact isPresent_flag (by rcases hs with e | e <;> rw [e] <;> rfl)
    · have hnone : commonArguments.find? (fun d => d.name = .allowOverlap) = none := by decide
      rw [isPresent_undeclared (by
        cases e : c.sub with
        | search => exact absurd (.inl e) hs
        | learn => exact absurd (.inr e) hs
        | query => exact hnone
        | index => exact hnone
        | testinput => exact hnone)]
      refine ⟨fun h => Bool.noConfusion h, ?_⟩
      rintro ⟨v, hv⟩
      have := hc.1 _ hv
      have hn : OptName.allowOverlap ∉ commonOptions := by decide
      cases e : c.sub with
      | search => exact absurd (.inl e) hs
      | learn => exact absurd (.inr e) hs
      | query => rw [e] at this; exact absurd this hn
      | index => rw [e] at this; exact absurd this hn
      | testinput => rw [e] at this; exact absurd this hn
  have hdebug : c.isPresent .debug = false := isPresent_undeclared (by cases c.sub <;> rfl)
  have hoff : c.isPresent .unicodeOffsets = false := isPresent_undeclared (by cases c.sub <;> rfl)
  rw [searchParameters_iff, hdebug, hoff,
    parsed_default (hall .maxAnagramDistance _ _ rfl) (ho _ (by decide)),
    parsed_default (hall .maxEditDistance _ _ rfl) (ho _ (by decide)),
    parsed_default (hall .maxMatches _ _ rfl) (ho _ (by decide)),
    parsed_default (hall .scoreThreshold _ _ rfl) (ho _ (by decide)),
    parsed_default (hall .cutoffThreshold _ _ rfl) (ho _ (by decide)),
    parsedOr_plain (hall .freqRanking _ _ rfl) (ho _ (by decide)),
    text_option (o := .maxNgramOrder) rfl rfl (by decide) (ho _ (by decide)),
    text_option (o := .lmOrder) rfl rfl (by decide) (ho _ (by decide)),
    text_option (o := .weightLm) rfl rfl (by decide) (ho _ (by decide)),
    text_option (o := .weightVariantModel) rfl rfl (by decide) (ho _ (by decide)),
    text_option (o := .weightContext) rfl rfl (by decide) (ho _ (by decide)),
    text_option (o := .weightContextrules) rfl rfl (by decide) (ho _ (by decide)),
    text_option (o := .maxSeq) rfl rfl (by decide) (ho _ (by decide))]
  simp only [thresholdText_iff parseF32 hf, parseUnsigned_iff]
  have hstop := isPresent_flag (c := c) (hall .stopExact _ _ rfl)
  have hsingle := isPresent_flag (c := c) (hall .singleThread _ _ rfl)
  have hinter := isPresent_flag (c := c) (hall .interactive _ _ rfl)
  have key1 : (p.stopCriterion = if c.isPresent .stopExact then StopCriterion.stopAtExactMatch
      else .exhaustive) ↔ (p.stopCriterion = .stopAtExactMatch ↔ Given c .stopExact) := by
    rw [← hstop]
    cases c.isPresent .stopExact <;> cases p.stopCriterion <;> simp
  have key2 : (p.singleThread = (c.isPresent .singleThread || false || c.isPresent .interactive)) ↔
      (p.singleThread = true ↔ Given c .singleThread ∨ Given c .interactive) := by
    rw [← hsingle, ← hinter]
    cases c.isPresent .singleThread <;> cases c.isPresent .interactive <;> cases p.singleThread <;> simp
  have key3 : (p.consolidateMatches = !c.isPresent .allowOverlap) ↔
      (p.consolidateMatches = false ↔ Given c .allowOverlap) := by
    rw [← hover]
    cases c.isPresent .allowOverlap <;> cases p.consolidateMatches <;> simp
  rw [key1, key2, key3]
  constructor
  · rintro ⟨h1, h2, h3, h4, h5, h6, h7, h8, h9, h10, h11, h12, h13, e1, e2, e3, e4⟩
    exact ⟨⟨h1, h2, h3, h4, h5, h7, e1, e2, e3,
      fun hs => ⟨h6.1 hs, h13.1 hs, h8.1 hs, h9.1 hs, h10.1 hs, h12.1 hs, h11.1 hs⟩,
      fun hs => ⟨h6.2 hs, h13.2 hs, h8.2 hs, h9.2 hs, h10.2 hs, h12.2 hs, h11.2 hs⟩⟩, e4⟩
  · rintro ⟨⟨h1, h2, h3, h4, h5, h7, e1, e2, e3, t, n⟩, e4⟩
    exact ⟨h1, h2, h3, h4, h5, ⟨fun hs => (t hs).ngram, fun hs => (n hs).1⟩, h7,
      ⟨fun hs => (t hs).order, fun hs => (n hs).2.2.1⟩,
      ⟨fun hs => (t hs).lm, fun hs => (n hs).2.2.2.1⟩,
      ⟨fun hs => (t hs).variant, fun hs => (n hs).2.2.2.2.1⟩,
      ⟨fun hs => (t hs).context, fun hs => (n hs).2.2.2.2.2.2⟩,
      ⟨fun hs => (t hs).rules, fun hs => (n hs).2.2.2.2.2.1⟩,
      ⟨fun hs => (t hs).seq, fun hs => (n hs).2.1⟩, e1, e2, e3, e4⟩

/-- **C84**: the weights of the components of a score. -/
theorem command_line_weights {parseF64 : List Char → Option EFloat} {c : CommandLine} (hc : Accepted c)
    (ld lcs pre suf case : EFloat) :
    c.weights parseF64 = .ok [ld, lcs, pre, suf, case] ↔ WeightRequest parseF64 c ld lcs pre suf case := by
  have ho : ∀ o, o ∉ repeatable → ∀ v w, (o, v) ∈ c.given → (o, w) ∈ c.given → v = w := hc.2
  have h1 := fun a => parsed_default (c := c) (n := .weightLd) (parse := parseF64) (a := a)
    (by cases c.sub <;> rfl) (ho _ (by decide))
  have h2 := fun a => parsed_default (c := c) (n := .weightLcs) (parse := parseF64) (a := a)
    (by cases c.sub <;> rfl) (ho _ (by decide))
  have h3 := fun a => parsed_default (c := c) (n := .weightPrefix) (parse := parseF64) (a := a)
    (by cases c.sub <;> rfl) (ho _ (by decide))
  have h4 := fun a => parsed_default (c := c) (n := .weightSuffix) (parse := parseF64) (a := a)
    (by cases c.sub <;> rfl) (ho _ (by decide))
  have h5 := fun a => parsed_default (c := c) (n := .weightCase) (parse := parseF64) (a := a)
    (by cases c.sub <;> rfl) (ho _ (by decide))
  constructor
  · intro h
    unfold CommandLine.weights at h
    obtain ⟨_, g1, h⟩ := bind_ok.mp h
    obtain ⟨_, g2, h⟩ := bind_ok.mp h
    obtain ⟨_, g3, h⟩ := bind_ok.mp h
    obtain ⟨_, g4, h⟩ := bind_ok.mp h
    obtain ⟨_, g5, h⟩ := bind_ok.mp h
    cases pure_ok.mp h
    exact ⟨(h1 _).mp g1, (h2 _).mp g2, (h3 _).mp g3, (h4 _).mp g4, (h5 _).mp g5⟩
  · rintro ⟨g1, g2, g3, g4, g5⟩
    unfold CommandLine.weights
    rw [(h1 _).mpr g1, (h2 _).mpr g2, (h3 _).mpr g3, (h4 _).mpr g4, (h5 _).mpr g5]
    rfl

/-- **C84**: lexicons, variant lists and error lists are read in the order in which the options are
given, and so are the other files, each kind for itself. -/
theorem command_line_resources {pos : Nat → Nat} (hpos : StrictMono pos) {c : CommandLine}
    (hc : Accepted c) {args : LoadArgs} (h : c.loadArgs pos = .ok args) :
    (.alphabet, args.alphabet) ∈ c.given ∧ args.resources = c.given.filterMap resourceOf ∧
      args.lm = c.given.filterMap (fun g => if g.1 = .lm then some g.2 else none) ∧
      args.confusables = c.given.filterMap (fun g => if g.1 = .confusables then some g.2 else none) ∧
      args.contextrules = c.given.filterMap (fun g => if g.1 = .contextrules then some g.2 else none) := by
  have hvals : ∀ o, c.values o = c.given.filterMap (fun g => if g.1 = o then some g.2 else none) := by
    intro o
    unfold CommandLine.values
    generalize c.given = l
    induction l with
    | nil => rfl
    | cons g l ih => by_cases e : g.1 = o <;> simp [e, ih]
  have hdecl : ∀ o, c.sub.declared.find? (fun d => d.name = o) = some ⟨o, o, none⟩ →
      c.valuesOf o = c.given.filterMap (fun g => if g.1 = o then some g.2 else none) := by
    intro o hd
    unfold CommandLine.valuesOf
    rw [hd, ← hvals]
    simp only
    split
    · rename_i e; rw [e]; rfl
    · rfl
  unfold CommandLine.loadArgs at h
  split at h
  · cases h
  · rename_i alphabet ha
    have ha' := (valueOf_iff (c := c) (n := .alphabet) (l := .alphabet) (d := none)
      (by cases c.sub <;> rfl) (hc.2 _ (by decide))).mp ha
    cases h
    refine ⟨by simpa using ha', ?_, ?_, hdecl _ (by cases c.sub <;> rfl), hdecl _ (by cases c.sub <;> rfl)⟩
    · rw [resources_in_order ((c.given.zipIdx).filterMap fun g => (resourceOf g.1).map fun r => (pos g.2, r))]
      · rw [List.map_filterMap]
        have : (fun g : (OptName × List Char) × Nat => Option.map Prod.snd
            ((resourceOf g.1).map fun r => (pos g.2, r))) = resourceOf ∘ Prod.fst := by
          funext g
          cases h : resourceOf g.1 <;> simp [h]
        rw [this, ← List.filterMap_map, List.zipIdx_map_fst]
      · have hlt : c.given.zipIdx.Pairwise fun a b => a.2 < b.2 := by
          have := List.pairwise_lt_range' (s := 0) (n := c.given.length)
          rw [← List.zipIdx_map_snd] at this
          exact (List.pairwise_map.mp this)
        refine List.Pairwise.filterMap _ ?_ hlt
        intro a b hab x hx y hy
        obtain ⟨r, _, rfl⟩ := Option.map_eq_some_iff.mp hx
        obtain ⟨r', _, rfl⟩ := Option.map_eq_some_iff.mp hy
        exact hpos hab
      · have key : ∀ (o : OptName) (sel : Nat × Resource → Option (List Char × Nat)),
            (∀ g : (OptName × List Char) × Nat,
              ((resourceOf g.1).map fun r => (pos g.2, r)).bind sel =
                if g.1.1 = o then some (g.1.2, pos g.2) else none) →
            c.indexed pos o = ((c.given.zipIdx).filterMap fun g =>
              (resourceOf g.1).map fun r => (pos g.2, r)).filterMap sel := by
          intro o sel hsel
          rw [List.filterMap_filterMap]
          unfold CommandLine.indexed
          simp only [hsel]
          generalize c.given.zipIdx = l
          induction l with
          | nil => rfl
          | cons g l ih => by_cases e : g.1.1 = o <;> simp [e, ih]
        refine ⟨key _ _ ?_, key _ _ ?_, key _ _ ?_⟩ <;>
          (rintro ⟨⟨o, f⟩, i⟩; cases o <;> rfl)
    · by_cases hs : c.sub = .search ∨ c.sub = .learn
      · exact hdecl _ (by rcases hs with e | e <;> rw [e] <;> rfl)
      · have hn : OptName.lm ∉ commonOptions := by decide
        have hnone : commonArguments.find? (fun d => d.name = .lm) = none := by decide
        have h0 : c.sub.declared = commonArguments ∧ optionsOf c.sub = commonOptions := by
          cases e : c.sub with
          | search => exact absurd (.inl e) hs
          | learn => exact absurd (.inr e) hs
          | query => exact ⟨rfl, rfl⟩
          | index => exact ⟨rfl, rfl⟩
          | testinput => exact ⟨rfl, rfl⟩
        show c.valuesOf .lm = _
        unfold CommandLine.valuesOf
        rw [h0.1, hnone, ← hvals]
        refine (values_nil.mpr ?_).symm
        rintro ⟨v, hv⟩
        have := hc.1 _ hv
        rw [h0.2] at this
        exact hn this

/-! ### An example -/

/-- A parser for the floats of the example. -/
def exParse (s : List Char) : Option EFloat :=
  if s = "0.5".toList then some (.fin (1 / 2)) else if s = "0.25".toList then some (.fin (1 / 4))
  else if s = "0.125".toList then some (.fin (1 / 8)) else if s = "0.0".toList then some (.fin 0)
  else if s = "1.0".toList then some (.fin 1) else if s = "2.0".toList then some (.fin 2)
  else if s = "3.0".toList then some (.fin 3) else none

/-- `search --alphabet a --errors e --unicode-offsets --max-edit-distance 0.5;4 --lexicon l --lm m
--single-thread` -/
def exCommandLine : CommandLine :=
  { sub := .search, debug := none
    given := [(.alphabet, ['a']), (.errors, ['e']), (.unicodeOffsets, []),
      (.maxEditDistance, "0.5;4".toList), (.lexicon, ['l']), (.lm, ['m']), (.singleThread, [])] }

example : Accepted exCommandLine := by
  refine ⟨by decide, ?_⟩
  intro o _ v w hv hw
  have : ∀ g ∈ exCommandLine.given, ∀ g' ∈ exCommandLine.given, g.1 = g'.1 → g.2 = g'.2 := by decide
  exact this _ hv _ hw rfl

example : ∀ s, ';' ∈ s → exParse s = none := by
  intro s hs
  unfold exParse
  repeat rw [if_neg (by rintro rfl; revert hs; decide)]

example : (exCommandLine.searchParameters exParse exParse).map (fun p =>
      (p.maxAnagramDistance, p.maxEditDistance, p.maxMatches, p.cutoffThreshold)) =
    .ok (.absolute 3, .ratioWithLimit (.fin (1 / 2)) 4, 10, .fin 2) ∧
    (exCommandLine.searchParameters exParse exParse).map (fun p =>
      (p.singleThread, p.unicodeoffsets, p.maxNgram, p.variantmodelWeight)) = .ok (true, false, 3, .fin 3) ∧
    exCommandLine.weights exParse = .ok [.fin (1 / 2), .fin (1 / 8), .fin (1 / 8), .fin (1 / 8), .fin (1 / 8)] ∧
    (exCommandLine.loadArgs (2 * ·)).map LoadArgs.resources = .ok [.errorList ['e'], .lexicon ['l']] := by
  decide +kernel

/-- **C84**, where it fails: code points are asked for, and bytes are counted. -/
theorem unicode_offsets_fails : ∃ c p, Accepted c ∧ Given c .unicodeOffsets ∧
    c.searchParameters exParse exParse = .ok p ∧ p.unicodeoffsets = false := by
  refine ⟨exCommandLine, _, ⟨by decide, ?_⟩, ⟨[], by decide⟩, rfl, rfl⟩
  intro o _ v w hv hw
  have : ∀ g ∈ exCommandLine.given, ∀ g' ∈ exCommandLine.given, g.1 = g'.1 → g.2 = g'.2 := by decide
  exact this _ hv _ hw rfl

end Verif.Props
