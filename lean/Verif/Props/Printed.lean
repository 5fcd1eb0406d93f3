import Verif.Props.Tool
import Verif.Props.Python

/-!
# What runs of the tool print (C88)
-/
namespace Verif.Props

open Verif.Spec Verif.Model Verif.Lemmas

/-! ## From the command line to the mode -/

theorem finite_iff {e : EFloat} {q : Rat} : e.finite = some q ↔ e = .fin q := by
  cases e <;> simp [EFloat.finite]

theorem threshold_finite_iff {t : ParsedThreshold} {d : DistanceThreshold} :
    t.finite = some d ↔ t = parsedAs d := by
  cases t with
  | ratio e =>
    simp only [ParsedThreshold.finite, Option.map_eq_some_iff, finite_iff]
    constructor
    · rintro ⟨q, rfl, rfl⟩; rfl
    · cases d <;> simp [parsedAs]
  | ratioWithLimit e n =>
    simp only [ParsedThreshold.finite, Option.map_eq_some_iff, finite_iff]
    constructor
    · rintro ⟨q, rfl, rfl⟩; rfl
    · cases d <;> simp [parsedAs]
  | absolute n =>
    simp only [ParsedThreshold.finite, Option.some.injEq]
    constructor
    · rintro rfl; rfl
    · cases d <;> simp [parsedAs]

theorem params_finite_iff {q : SearchParameters} {p : TextParams} : q.finite = some p ↔ Numbers q p := by
  unfold SearchParameters.finite
  constructor
  · intro h
    simp only [bind, Option.bind_eq_some_iff, pure, Option.some.injEq, finite_iff,
      threshold_finite_iff] at h
    obtain ⟨a, h1, b, h2, d, h3, e, h4, f, h5, g, h6, i, h7, j, h8, rfl⟩ := h
    exact ⟨h1, h2, rfl, h3, h4, rfl, h5, rfl, rfl, rfl, h6, h7, h8, rfl⟩
  · rintro ⟨h1, h2, h3, h4, h5, h6, h7, h8, h9, h10, h11, h12, h13, h14⟩
    simp only [bind, Option.bind_eq_some_iff, pure, Option.some.injEq, finite_iff,
      threshold_finite_iff]
    refine ⟨_, h1, _, h2, _, h4, _, h5, _, h7, _, h11, _, h12, _, h13, ?_⟩
    obtain ⟨⟨_, _, _, _, _, _, _⟩, _, _, _, _, _, _, _⟩ := p
    simp only at h3 h6 h8 h9 h10 h14
    simp [h3, h6, h8, h9, h10, h14]

theorem finiteWeights_iff {ws : List EFloat} {w : Weights} :
    finiteWeights ws = some w ↔ ws = [.fin w.ld, .fin w.lcs, .fin w.pre, .fin w.suf, .fin w.case] := by
  constructor
  · intro h
    unfold finiteWeights at h
    split at h
    · cases h; rfl
    · cases h
  · rintro rfl; rfl

theorem weights_five {c : CommandLine} {parseF64 : List Char → Option EFloat} {ws : List EFloat}
    (h : c.weights parseF64 = .ok ws) : ∃ a b d e f, ws = [a, b, d, e, f] := by
  unfold CommandLine.weights at h
  obtain ⟨a, -, h⟩ := bind_ok.mp h
  obtain ⟨b, -, h⟩ := bind_ok.mp h
  obtain ⟨d, -, h⟩ := bind_ok.mp h
  obtain ⟨e, -, h⟩ := bind_ok.mp h
  obtain ⟨f, -, h⟩ := bind_ok.mp h
  cases pure_ok.mp h
  exact ⟨a, b, d, e, f, rfl⟩

theorem loadedFor_iff {x : ToolExt} (hpos : StrictMono x.pos) {c : CommandLine} (hc : Accepted c)
    {L : Loaded} : LoadedFor x c L ↔
      ∃ args, c.loadArgs x.pos = .ok args ∧ x.load.load args x.orders = .ok L := by
  constructor
  · rintro ⟨args, h1, h2, h3, h4, h5, h6⟩
    have ha : c.valueOf .alphabet = some args.alphabet :=
      (valueOf_iff (c := c) (n := .alphabet) (l := .alphabet) (d := none)
        (by cases c.sub <;> rfl) (hc.2 _ (by decide))).mpr (.inl h1)
    obtain ⟨args', ha'⟩ : ∃ args', c.loadArgs x.pos = .ok args' := by
      unfold CommandLine.loadArgs
      rw [ha]
      exact ⟨_, rfl⟩
    obtain ⟨g1, g2, g3, g4, g5⟩ := command_line_resources hpos hc ha'
    refine ⟨args', ha', ?_⟩
    rw [← h6]
    exact load_args ⟨hc.2 .alphabet (by decide) _ _ g1 h1, by rw [g2, h2], by rw [g3, h3],
      by rw [g4, h4], by rw [g5, h5]⟩ _ _
  · rintro ⟨args, h1, h2⟩
    obtain ⟨g1, g2, g3, g4, g5⟩ := command_line_resources hpos hc h1
    exact ⟨args, g1, g2, g3, g4, g5, h2⟩

theorem debugLevel_ok {c : CommandLine} : (∃ n, c.debugLevel = .ok n) ↔
    c.debug = none ∨ ∃ v n, c.debug = some v ∧ NumberText 255 v n ∧ n ≤ 1 := by
  unfold CommandLine.debugLevel
  cases c.debug with
  | none => exact ⟨fun _ => .inl rfl, fun _ => ⟨0, by decide⟩⟩
  | some v =>
    simp only [Option.getD_some, Option.some.injEq, reduceCtorEq, false_or]
    cases h : parseUnsigned 255 v with
    | none =>
      simp only [reduceCtorEq, exists_false, false_iff, not_exists, not_and]
      rintro v' n rfl hn _
      rw [(parseUnsigned_iff _ _ _).mpr hn] at h
      cases h
    | some n =>
      dsimp only
      constructor
      · intro hk
        split at hk
        · rename_i hle
          exact ⟨v, n, rfl, (parseUnsigned_iff _ _ _).mp h, hle⟩
        · obtain ⟨_, hk⟩ := hk
          cases hk
      · rintro ⟨v', n', rfl, hn, hle⟩
        rw [(parseUnsigned_iff _ _ _).mpr hn] at h
        cases h
        rw [if_pos hle]
        exact ⟨n, rfl⟩

/-- A run that gets as far as its input. -/
theorem main_output {x : ToolExt} (hf : ∀ s, ';' ∈ s → x.parseF32 s = none) (hpos : StrictMono x.pos)
    {c : CommandLine} (hc : Accepted c) (h1 : c.sub ≠ .index) (h2 : c.sub ≠ .testinput)
    (files : List (List Char)) (s : List Char) (ws : List (List FileWrite)) :
    x.main c files = .ok (.output s ws) ↔
      ∃ L w p, Asked x c L w p ∧ x.modes c files L w p = .ok (.output s ws) := by
  constructor
  · intro h
    unfold ToolExt.main at h
    obtain ⟨wl, hw, h⟩ := bind_ok.mp h
    obtain ⟨d, hd, h⟩ := bind_ok.mp h
    rw [if_neg h2] at h
    unfold ToolExt.withModel at h
    obtain ⟨args, ha, h⟩ := bind_ok.mp h
    obtain ⟨L, hL, h⟩ := bind_ok.mp h
    obtain ⟨q, hq, h⟩ := bind_ok.mp h
    split at h
    · cases pure_ok.mp h
    · rename_i hcut
      split at h
      · rename_i w p hfw hfp
        rw [finiteWeights_iff] at hfw
        rw [params_finite_iff] at hfp
        obtain ⟨r1, r2⟩ := (command_line_parameters_partial hf hc q).mp hq
        refine ⟨L, w, p, ⟨(loadedFor_iff hpos hc).mpr ⟨args, ha, hL⟩, ?_, ⟨q, r1, r2, hfp⟩, ?_,
          debugLevel_ok.mp ⟨d, hd⟩⟩, h⟩
        · rw [hfw] at hw
          exact (command_line_weights hc _ _ _ _ _).mp hw
        · rw [hfp.cutoff] at hcut
          simp only [cutoffAccepted, Bool.not_not, Bool.and_eq_true, decide_eq_true_eq, not_and,
            not_not] at hcut
          by_cases hlt : p.variant.cutoffThreshold < 1
          · exact .inl (hcut hlt)
          · exact .inr (not_lt.mp hlt)
      · cases pure_ok.mp h
  · rintro ⟨L, w, p, ⟨a1, a2, ⟨q, r1, r2, hfp⟩, a4, a5⟩, h⟩
    obtain ⟨args, ha, hL⟩ := (loadedFor_iff hpos hc).mp a1
    obtain ⟨d, hd⟩ := debugLevel_ok.mpr a5
    unfold ToolExt.main
    refine bind_ok.mpr ⟨_, (command_line_weights hc _ _ _ _ _).mpr a2, bind_ok.mpr ⟨d, hd, ?_⟩⟩
    rw [if_neg h2]
    unfold ToolExt.withModel
    refine bind_ok.mpr ⟨args, ha, bind_ok.mpr ⟨L, hL, bind_ok.mpr
      ⟨q, (command_line_parameters_partial hf hc q).mpr ⟨r1, r2⟩, ?_⟩⟩⟩
    rw [if_neg, if_neg h1, finiteWeights_iff.mpr rfl, params_finite_iff.mpr hfp]
    · exact h
    · rw [hfp.cutoff]
      simp only [cutoffAccepted, Bool.not_not, Bool.and_eq_true, decide_eq_true_eq, not_and, not_not]
      intro hlt
      rcases a4 with e | e
      · exact e
      · exact absurd hlt (not_lt.mpr e)

theorem isStdin_iff {f : List Char} : isStdin f = true ↔ StdinName f := by
  unfold isStdin StdinName
  simp [or_assoc]

theorem inputs_iff {x : ToolExt} {used : Bool} {files : List (List Char)}
    {inputs : List (List (Option (List Char)))} :
    x.inputs used files = .ok inputs ↔
      inputs.length = files.length ∧ ∀ (i : Nat) f lines, files[i]? = some f →
        inputs[i]? = some lines →
          (¬ StdinName f ∧ x.load.file f = some lines) ∨
          (StdinName f ∧ (used = false ∧ ∀ j < i, ∀ g, files[j]? = some g → ¬ StdinName g) ∧
            lines = x.stdin) ∨
          (StdinName f ∧ (used = true ∨ ∃ j < i, ∃ g, files[j]? = some g ∧ StdinName g) ∧
            lines = []) := by
  induction files generalizing used inputs with
  | nil =>
    simp only [ToolExt.inputs, List.length_nil, List.length_eq_zero_iff, Except.ok.injEq,
      List.getElem?_nil, reduceCtorEq, false_implies, implies_true, and_true]
    exact eq_comm
  | cons f files ih =>
    have shift : ∀ {P : Nat → Prop} {i : Nat}, (∀ j < i + 1, P j) ↔ P 0 ∧ ∀ j < i, P (j + 1) := by
      intro P i
      constructor
      · intro h; exact ⟨h 0 (by omega), fun j hj => h (j + 1) (by omega)⟩
      · rintro ⟨h0, h⟩ j hj
        cases j with
        | zero => exact h0
        | succ j => exact h j (by omega)
    have shift' : ∀ {P : Nat → Prop} {i : Nat}, (∃ j < i + 1, P j) ↔ P 0 ∨ ∃ j < i, P (j + 1) := by
      intro P i
      constructor
      · rintro ⟨j, hj, h⟩
        cases j with
        | zero => exact .inl h
        | succ j => exact .inr ⟨j, by omega, h⟩
      · rintro (h | ⟨j, hj, h⟩)
        · exact ⟨0, by omega, h⟩
        · exact ⟨j + 1, by omega, h⟩
    have rest : ∀ (inputs : List (List (Option (List Char)))) (u : Bool),
        (u = true ↔ used = true ∨ StdinName f) →
        (x.inputs u files = .ok inputs ↔ inputs.length = files.length ∧
          ∀ (i : Nat) g lines, files[i]? = some g → inputs[i]? = some lines →
            (¬ StdinName g ∧ x.load.file g = some lines) ∨
            (StdinName g ∧ (used = false ∧ ∀ j < i + 1, ∀ g, (f :: files)[j]? = some g → ¬ StdinName g) ∧
              lines = x.stdin) ∨
            (StdinName g ∧ (used = true ∨ ∃ j < i + 1, ∃ g, (f :: files)[j]? = some g ∧ StdinName g) ∧
              lines = [])) := by
      intro inputs u hu
      rw [ih]
      simp only [shift, shift', List.getElem?_cons_zero, Option.some.injEq, forall_eq', exists_eq_left',
        List.getElem?_cons_succ]
      have e1 : u = false ↔ used = false ∧ ¬ StdinName f := by
        rw [← Bool.not_eq_true, hu, not_or, Bool.not_eq_true]
      simp only [e1, hu, and_assoc, or_assoc]
    unfold ToolExt.inputs
    by_cases hs : isStdin f = true
    · rw [if_pos hs, bind_ok]
      rw [isStdin_iff] at hs
      constructor
      · rintro ⟨r, h1, h2⟩
        cases pure_ok.mp h2
        obtain ⟨h3, h4⟩ := (rest r true (by simp [hs])).mp h1
        refine ⟨by simp [h3], ?_⟩
        intro i g lines hg hl
        cases i with
        | zero =>
          simp only [List.getElem?_cons_zero, Option.some.injEq] at hg hl
          subst hg hl
          cases used with
          | false => exact .inr (.inl ⟨hs, ⟨rfl, by simp⟩, rfl⟩)
          | true => exact .inr (.inr ⟨hs, .inl rfl, rfl⟩)
        | succ i => exact h4 i g lines hg hl
      · rintro ⟨h1, h2⟩
        cases inputs with
        | nil => simp at h1
        | cons a inputs =>
          have ha := h2 0 f a rfl rfl
          refine ⟨inputs, (rest inputs true (by simp [hs])).mpr ⟨by simpa using h1,
            fun i g lines hg hl => h2 (i + 1) g lines hg hl⟩, pure_ok.mpr ?_⟩
          congr 1
          rcases ha with ⟨h, -⟩ | ⟨-, ⟨h, -⟩, h'⟩ | ⟨-, h, h'⟩
          · exact absurd hs h
          · rw [h, h']; rfl
          · rcases h with h | ⟨j, hj, -⟩
            · rw [h, h']; rfl
            · omega
    · rw [if_neg hs, bind_ok]
      have hs' : isStdin f = false := by simpa using hs
      rw [isStdin_iff] at hs
      have hopen : ∀ lines, x.load.open f = .ok lines ↔ x.load.file f = some lines := by
        intro lines
        unfold LoadExt.open
        cases x.load.file f <;> simp
      constructor
      · rintro ⟨lines, h0, h⟩
        obtain ⟨r, h1, h2⟩ := bind_ok.mp h
        cases pure_ok.mp h2
        obtain ⟨h3, h4⟩ := (rest r used (by simp [hs])).mp h1
        refine ⟨by simp [h3], ?_⟩
        intro i g lines' hg hl
        cases i with
        | zero =>
          simp only [List.getElem?_cons_zero, Option.some.injEq] at hg hl
          subst hg hl
          exact .inl ⟨hs, (hopen _).mp h0⟩
        | succ i => exact h4 i g lines' hg hl
      · rintro ⟨h1, h2⟩
        cases inputs with
        | nil => simp at h1
        | cons a inputs =>
          have ha := h2 0 f a rfl rfl
          have hfile : x.load.file f = some a := by
            rcases ha with ⟨-, h⟩ | ⟨h, -⟩ | ⟨h, -⟩
            · exact h
            · exact absurd h hs
            · exact absurd h hs
          exact ⟨a, (hopen a).mpr hfile, bind_ok.mpr ⟨inputs, (rest inputs used (by simp [hs])).mpr
            ⟨by simpa using h1, fun i g lines hg hl => h2 (i + 1) g lines hg hl⟩, rfl⟩⟩

theorem inputsOf_iff {x : ToolExt} {files : List (List Char)}
    {inputs : List (List (Option (List Char)))} :
    x.inputs false (if files.isEmpty then ["-".toList] else files) = .ok inputs ↔
      InputsOf x files inputs := by
  cases files with
  | nil =>
    rw [if_pos (by rfl), InputsOf]
    simp only [true_and, ne_eq, not_true_eq_false, false_and, or_false]
    constructor
    · intro h; cases h; rfl
    · rintro rfl; rfl
  | cons f files =>
    rw [if_neg (by simp), inputs_iff, InputsOf]
    simp only [reduceCtorEq, false_and, ne_eq, not_false_eq_true, true_and, false_or, Bool.false_eq_true]


/-! ## Rows -/

theorem isPresent_iff {c : CommandLine} {o : OptName}
    (hd : commonArguments.find? (fun d => d.name = o) = some ⟨o, o, none⟩) :
    c.isPresent o = true ↔ Given c o := by
  refine isPresent_flag ?_
  cases c.sub with
  | search => show (commonArguments ++ _).find? _ = _; rw [List.find?_append, hd]; rfl
  | learn => show (commonArguments ++ _ ++ _).find? _ = _; rw [List.append_assoc, List.find?_append, hd]; rfl
  | query => exact hd
  | index => exact hd
  | testinput => exact hd

theorem settings_iff {x : ToolExt} {c : CommandLine} {L : Loaded} {w : Weights} {cfg : TextConfig} :
    Settings x c L w cfg ↔ cfg = x.config c L w := by
  have he := isPresent_iff (c := c) (o := .earlyConfusables) rfl
  constructor
  · rintro ⟨h1, h2, h3, h4, h5⟩
    obtain ⟨⟨_, _, _, _⟩, _⟩ := cfg
    simp only at h1 h2 h3 h4 h5
    unfold ToolExt.config
    rw [← he] at h3
    simp only [h1, h2, h4, h5, Bool.eq_iff_iff.mpr h3]
  · rintro rfl
    exact ⟨rfl, rfl, he, rfl, rfl⟩

theorem resultTsv_iff {x : ToolExt} {c : CommandLine} {L : Loaded} {p : TextParams} {r : VariantResult}
    {cols : List Char} :
    (x.printer c L p).resultTsv r = .ok cols ↔ VariantColumns x c L p r cols := by
  have hl := isPresent_iff (c := c) (o := .outputLexmatch) rfl
  unfold Printer.resultTsv VariantColumns
  have hv : ∀ v, (x.printer c L p).vocab r.vocabId = .ok v ↔ L.vm.decoder[r.vocabId]? = some v := by
    intro v
    unfold Printer.vocab
    show (match L.vm.decoder[r.vocabId]? with | some v => _ | none => _) = _ ↔ _
    cases L.vm.decoder[r.vocabId]? <;> simp
  have hlex : ∀ v lex, (x.printer c L p).lexmatchTsv v = .ok lex ↔
      (¬ Given c .outputLexmatch ∧ lex = []) ∨
      (Given c .outputLexmatch ∧ L.vm.lexicons.length ≤ 32 ∧
        lex = '\t' :: '"' :: [';'].intercalate
          ((L.vm.lexicons.zipIdx.filter fun n => v.lexindex.testBit n.2).map Prod.fst) ++ ['"']) := by
    intro v lex
    unfold Printer.lexmatchTsv
    have e : (x.printer c L p).lexmatch = c.isPresent .outputLexmatch := rfl
    rw [e]
    by_cases hg : Given c .outputLexmatch
    · rw [if_pos (hl.mpr hg), bind_ok]
      simp only [hg, not_true_eq_false, false_and, true_and, false_or]
      have e2 : (x.printer c L p).vm.lexicons = L.vm.lexicons := rfl
      rw [e2]
      constructor
      · rintro ⟨names, h1, h2⟩
        rw [lexiconsOf_iff (by omega)] at h1
        obtain ⟨h3, rfl⟩ := h1
        refine ⟨?_, ?_⟩
        · rcases h3 with h3 | h3
          · rw [h3]; simp
          · omega
        · rw [← pure_ok.mp h2]
          rfl
      · rintro ⟨h1, h2⟩
        refine ⟨_, (lexiconsOf_iff (by omega)).mpr ⟨.inr (by omega), rfl⟩, ?_⟩
        rw [h2]
        rfl
    · have : c.isPresent .outputLexmatch = false := by
        rw [← Bool.not_eq_true, hl]; exact hg
      rw [this]
      simp only [Bool.false_eq_true, if_false, Except.ok.injEq, hg, not_false_eq_true, true_and,
        false_and, or_false]
      exact eq_comm
  constructor
  · intro h
    obtain ⟨v, h1, h⟩ := bind_ok.mp h
    obtain ⟨lex, h2, h⟩ := bind_ok.mp h
    refine ⟨v, (hv v).mp h1, lex, (hlex v lex).mp h2, ?_⟩
    rw [← pure_ok.mp h]
    simp
    rfl
  · rintro ⟨v, h1, lex, h2, h3⟩
    refine bind_ok.mpr ⟨v, (hv v).mpr h1, bind_ok.mpr ⟨lex, (hlex v lex).mpr h2, ?_⟩⟩
    rw [h3]
    refine pure_ok.mpr ?_
    simp
    rfl

theorem forall₂_congr {α β : Type} {R Q : α → β → Prop} (h : ∀ a b, R a b ↔ Q a b) {l : List α}
    {l' : List β} : List.Forall₂ R l l' ↔ List.Forall₂ Q l l' :=
  ⟨fun g => g.imp fun a b => (h a b).mp, fun g => g.imp fun a b => (h a b).mpr⟩

theorem listed_zero {vs l : List VariantResult} : Listed vs (some 0) l ↔ l = vs := by
  unfold Listed
  cases vs with
  | nil => simp
  | cons a vs => simp

theorem queryRow_iff {x : ToolExt} {c : CommandLine} (hj : ¬ Given c .json) {L : Loaded} {p : TextParams}
    {input : List Char} {found : List VariantResult} {n : Nat} {row : List Char} :
    (x.printer c L p).query (c.isPresent .json) input found n = .ok row ↔
      QueryRow x c L p input found row := by
  have hp : c.isPresent .json = false := by
    rw [← Bool.not_eq_true, isPresent_iff rfl]; exact hj
  rw [hp]
  show (x.printer c L p).matchesTsv input (some found) (some 0) none = .ok row ↔ _
  rw [output_order_tsv]
  unfold QueryRow
  simp only [listed_zero]
  constructor
  · rintro ⟨l, parts, rfl, h1, h2⟩
    refine ⟨parts, (forall₂_congr fun _ _ => resultTsv_iff).mp h1, ?_⟩
    rw [h2]
    simp [offsetTsv]
  · rintro ⟨cols, h1, h2⟩
    refine ⟨found, cols, rfl, (forall₂_congr fun _ _ => resultTsv_iff).mpr h1, ?_⟩
    rw [h2]
    simp [offsetTsv]

theorem printBatch_rows {x : ToolExt} {c : CommandLine} (hj : ¬ Given c .json) {L : Loaded}
    {p : TextParams} {ps : List (List Char × List VariantResult)} {n : Nat} {out : List Char} :
    (x.printer c L p).printBatch (c.isPresent .json) n ps = .ok out ↔
      ∃ rows, List.Forall₂ (fun q row => QueryRow x c L p q.1 q.2 row) ps rows ∧ out = rows.flatten := by
  induction ps generalizing n out with
  | nil =>
    constructor
    · intro h; cases h; exact ⟨[], .nil, rfl⟩
    · rintro ⟨rows, h, rfl⟩; cases h; rfl
  | cons q ps ih =>
    obtain ⟨input, vs⟩ := q
    rw [Printer.printBatch]
    constructor
    · intro h
      obtain ⟨s, h1, h⟩ := bind_ok.mp h
      obtain ⟨t, h2, h⟩ := bind_ok.mp h
      obtain ⟨rows, h3, rfl⟩ := ih.mp h2
      exact ⟨s :: rows, .cons ((queryRow_iff hj).mp h1) h3, (pure_ok.mp h).symm.trans (by simp)⟩
    · rintro ⟨rows, h, rfl⟩
      cases h with
      | cons h1 h2 =>
        exact bind_ok.mpr ⟨_, (queryRow_iff hj).mpr h1, bind_ok.mpr ⟨_, ih.mpr ⟨_, h2, rfl⟩,
          pure_ok.mpr (by simp)⟩⟩

/-- The rows for one input of a query. -/
theorem process_rows {x : ToolExt} {c : CommandLine} (hj : ¬ Given c .json) {L : Loaded}
    {p : TextParams} {find : List Char → Res (List VariantResult)} {lines : List (Option (List Char))}
    {out : List Char} :
    (x.printer c L p).process find (c.isPresent .json) 0 lines = .ok out ↔
      ∃ rows, List.Forall₂ (fun l row => ∃ vs, find l = .ok vs ∧ QueryRow x c L p l vs row)
        (readable lines) rows ∧ out = rows.flatten := by
  rw [process_some]
  generalize readable lines = ls
  simp only [printBatch_rows hj, collectSeq_ok]
  constructor
  · rintro ⟨ps, h1, rows, h2, rfl⟩
    refine ⟨rows, ?_, rfl⟩
    induction h1 generalizing rows with
    | nil => cases h2; exact .nil
    | cons i1 _ ih =>
      cases h2 with
      | cons i2 i3 =>
        obtain ⟨vs, g1, g2⟩ := bind_ok.mp i1
        cases pure_ok.mp g2
        exact .cons ⟨vs, g1, i2⟩ (ih _ i3)
  · rintro ⟨rows, h, rfl⟩
    suffices ∃ ps, List.Forall₂ (fun s s' => paired find s = .ok s') ls ps ∧
        List.Forall₂ (fun q row => QueryRow x c L p q.1 q.2 row) ps rows by
      obtain ⟨ps, h1, h2⟩ := this
      exact ⟨ps, h1, rows, h2, rfl⟩
    induction h with
    | nil => exact ⟨[], .nil, .nil⟩
    | @cons l row ls rows i1 _ ih =>
      obtain ⟨vs, g1, g2⟩ := i1
      obtain ⟨ps, h1, h2⟩ := ih
      exact ⟨(l, vs) :: ps, .cons (bind_ok.mpr ⟨vs, g1, rfl⟩) h1, .cons g2 h2⟩

/-- **C88**: without `--json`, a query prints one row for each line of the input files, in order, with
the variants that the search of the library finds for it: with the resources, parameters and weights that
the command line names. -/
theorem query_run {x : ToolExt} (hf : ∀ s, ';' ∈ s → x.parseF32 s = none) (hpos : StrictMono x.pos)
    {c : CommandLine} (hc : Accepted c) (hsub : c.sub = .query) (hj : ¬ Given c .json)
    (files : List (List Char)) (s : List Char) (ws : List (List FileWrite)) :
    x.main c files = .ok (.output s ws) ↔
      ws = [] ∧ ∃ L w p cfg inputs, Asked x c L w p ∧ Settings x c L w cfg ∧ InputsOf x files inputs ∧
        (p.singleThread = false → ∀ lines ∈ inputs, none ∉ lines) ∧
        ∃ rows, List.Forall₂ (fun l row => ∃ vs,
            L.vm.findVariants x.text.toExt cfg.toConfig p.variant l = .ok vs ∧ QueryRow x c L p l vs row)
          (inputs.flatMap readable) rows ∧ s = rows.flatten := by
  have hp : c.isPresent .json = false := by
    rw [← Bool.not_eq_true, isPresent_iff rfl]; exact hj
  rw [main_output hf hpos hc (by rw [hsub]; decide) (by rw [hsub]; decide)]
  have one : ∀ (L : Loaded) (p : TextParams) (find : List Char → Res (List VariantResult))
      (lines : List (Option (List Char))) (out : List Char),
      (if p.singleThread then (x.printer c L p).process find (c.isPresent .json) 0
        else (x.printer c L p).processPar find x.text.sched (c.isPresent .json)) lines = .ok out ↔
      (p.singleThread = false → none ∉ lines) ∧
        ∃ rows, List.Forall₂ (fun l row => ∃ vs, find l = .ok vs ∧ QueryRow x c L p l vs row)
          (readable lines) rows ∧ out = rows.flatten := by
    intro L p find lines out
    rw [← process_rows hj]
    cases hst : p.singleThread with
    | true => simp
    | false =>
      simp only [Bool.false_eq_true, if_false, forall_const]
      by_cases hr : none ∈ lines
      · simp only [hr, not_true_eq_false, false_and, iff_false]
        exact unreadable_line_stops_parallel _ _ _ _ _ hr _
      · simp only [hr, not_false_eq_true, true_and]
        exact parallel_query _ _ _ x.text.sched_perm _ _ hr _
  have all : ∀ (L : Loaded) (p : TextParams) (find : List Char → Res (List VariantResult))
      (inputs : List (List (Option (List Char)))) (out : List Char),
      runFiles (c.isPresent .json)
        (if p.singleThread then (x.printer c L p).process find (c.isPresent .json) 0
        else (x.printer c L p).processPar find x.text.sched (c.isPresent .json)) inputs = .ok out ↔
      (p.singleThread = false → ∀ lines ∈ inputs, none ∉ lines) ∧
        ∃ rows, List.Forall₂ (fun l row => ∃ vs, find l = .ok vs ∧ QueryRow x c L p l vs row)
          (inputs.flatMap readable) rows ∧ out = rows.flatten := by
    intro L p find inputs out
    unfold runFiles
    rw [bind_ok]
    simp only [collectSeq_ok, forall₂_congr (one L p find)]
    constructor
    · rintro ⟨outs, h1, h2⟩
      obtain rfl : outs.flatten = out := by
        have := pure_ok.mp h2
        rw [hp] at this
        simpa using this
      clear h2
      induction h1 with
      | nil => exact ⟨by simp, [], .nil, rfl⟩
      | cons i1 _ ih =>
        obtain ⟨g1, rows1, g2, rfl⟩ := i1
        obtain ⟨g3, rows2, g4, g5⟩ := ih
        refine ⟨?_, rows1 ++ rows2, ?_, by simp [g5]⟩
        · intro hst
          rw [List.forall_mem_cons]
          exact ⟨g1 hst, g3 hst⟩
        · rw [List.flatMap_cons]
          exact List.rel_append g2 g4
    · rintro ⟨h1, rows, h2, rfl⟩
      suffices ∃ outs, List.Forall₂ (fun lines out => (p.singleThread = false → none ∉ lines) ∧
          ∃ rows, List.Forall₂ (fun l row => ∃ vs, find l = .ok vs ∧ QueryRow x c L p l vs row)
            (readable lines) rows ∧ out = rows.flatten) inputs outs ∧ outs.flatten = rows.flatten by
        obtain ⟨outs, g1, g2⟩ := this
        refine ⟨outs, g1, pure_ok.mpr ?_⟩
        rw [hp]
        simpa using g2
      induction inputs generalizing rows with
      | nil =>
        cases h2
        exact ⟨[], .nil, rfl⟩
      | cons lines inputs ih =>
        rw [List.flatMap_cons] at h2
        have h3 := (List.forall₂_take_append rows _ _ h2.flip).flip
        have h4 := (List.forall₂_drop_append rows _ _ h2.flip).flip
        obtain ⟨outs, g1, g2⟩ := ih (fun hst l hl => h1 hst l (List.mem_cons_of_mem _ hl)) _ h4
        refine ⟨(rows.take (readable lines).length).flatten :: outs, .cons ⟨fun hst => h1 hst lines
          (List.mem_cons_self ..), _, h3, rfl⟩ g1, ?_⟩
        rw [List.flatten_cons, g2, ← List.flatten_append, List.take_append_drop]
  have modes : ∀ L w p, x.modes c files L w p = .ok (.output s ws) ↔
      ws = [] ∧ ∃ inputs, InputsOf x files inputs ∧ (p.singleThread = false → ∀ lines ∈ inputs, none ∉ lines) ∧
        ∃ rows, List.Forall₂ (fun l row => ∃ vs,
            L.vm.findVariants x.text.toExt (x.config c L w).toConfig p.variant l = .ok vs ∧
              QueryRow x c L p l vs row)
          (inputs.flatMap readable) rows ∧ s = rows.flatten := by
    intro L w p
    unfold ToolExt.modes
    rw [hsub, bind_ok]
    simp only [inputsOf_iff]
    constructor
    · rintro ⟨inputs, h1, h2⟩
      unfold ToolExt.query at h2
      obtain ⟨t, h3, h4⟩ := bind_ok.mp h2
      cases pure_ok.mp h4
      exact ⟨rfl, inputs, h1, (all _ _ _ _ _).mp h3⟩
    · rintro ⟨rfl, inputs, h1, h2⟩
      exact ⟨inputs, h1, bind_ok.mpr ⟨s, (all _ _ _ _ _).mpr h2, rfl⟩⟩
  simp only [modes, settings_iff]
  constructor
  · rintro ⟨L, w, p, h1, h2, inputs, h3⟩
    exact ⟨h2, L, w, p, _, inputs, h1, rfl, h3⟩
  · rintro ⟨h2, L, w, p, _, inputs, h1, rfl, h3⟩
    exact ⟨L, w, p, h1, h2, inputs, h3⟩

theorem ex_noSemicolon : ∀ s, ';' ∈ s → exTool.parseF32 s = none := by
  intro s hs
  show exParse s = none
  unfold exParse
  repeat rw [if_neg (by rintro rfl; revert hs; decide)]

theorem ex_pos : StrictMono exTool.pos := fun a b h => by simp [exTool]; omega

theorem accepted_of {c : CommandLine} (h1 : ∀ g ∈ c.given, g.1 ∈ optionsOf c.sub)
    (h2 : ∀ g ∈ c.given, ∀ g' ∈ c.given, g.1 = g'.1 → g.2 = g'.2) : Accepted c :=
  ⟨h1, fun _ _ _ _ hv hw => h2 _ hv _ hw rfl⟩

theorem not_given {c : CommandLine} {o : OptName} (h : ∀ g ∈ c.given, g.1 ≠ o) : ¬ Given c o :=
  fun ⟨_, hv⟩ => h _ hv rfl

/-- A file with three lines and standard input with one: four rows. -/
example : ∃ L w p cfg inputs, Asked exTool exQuery L w p ∧ Settings exTool exQuery L w cfg ∧
    InputsOf exTool [['q'], ['-']] inputs ∧ ∃ rows, List.Forall₂ (fun l row => ∃ vs,
      L.vm.findVariants exTool.text.toExt cfg.toConfig p.variant l = .ok vs ∧
        QueryRow exTool exQuery L p l vs row) (inputs.flatMap readable) rows ∧
      "ab\tab\t1\t\nbb\tb\t0.5\t\nb\tb\t1\t\nba\tb\t0.5\t\tab\t0.5\t\n".toList = rows.flatten := by
  have h : exTool.main exQuery [['q'], ['-']] = .ok (.output
      "ab\tab\t1\t\nbb\tb\t0.5\t\nb\tb\t1\t\nba\tb\t0.5\t\tab\t0.5\t\n".toList []) := by decide +kernel
  obtain ⟨_, L, w, p, cfg, inputs, h1, h2, h3, _, h4⟩ :=
    (query_run ex_noSemicolon ex_pos (accepted_of (by decide) (by decide)) rfl
      (not_given (by decide)) [['q'], ['-']] _ _).mp h
  exact ⟨L, w, p, cfg, inputs, h1, h2, h3, h4⟩

/-! ## Search -/

theorem matchRow_iff {x : ToolExt} {c : CommandLine} {L : Loaded} {p : TextParams} {a : Match} {n : Nat}
    {row : List Char} : (x.printer c L p).found false a n = .ok row ↔ MatchRow x c L p a row := by
  show (x.printer c L p).matchesTsv a.text a.variants a.selected (some (a.first, a.last)) = .ok row ↔ _
  unfold MatchRow
  cases hv : a.variants with
  | none =>
    simp only [exists_eq_left]
    show Except.ok _ = _ ↔ _
    rw [Except.ok.injEq, eq_comm]
    simp [offsetTsv]
  | some vs =>
    rw [output_order_tsv]
    constructor
    · rintro ⟨l, parts, h1, h2, h3⟩
      refine ⟨parts, ⟨l, h1, (forall₂_congr fun _ _ => resultTsv_iff).mp h2⟩, ?_⟩
      rw [h3]
      simp [offsetTsv]
    · rintro ⟨cols, ⟨l, h1, h2⟩, h3⟩
      refine ⟨l, cols, h1, (forall₂_congr fun _ _ => resultTsv_iff).mpr h2, ?_⟩
      rw [h3]
      simp [offsetTsv]

theorem foundAll_rows {x : ToolExt} {c : CommandLine} {L : Loaded} {p : TextParams} {ms : List Match}
    {n : Nat} {out : List Char} :
    (x.printer c L p).foundAll false n ms = .ok out ↔
      ∃ rows, List.Forall₂ (MatchRow x c L p) ms rows ∧ out = rows.flatten := by
  induction ms generalizing n out with
  | nil =>
    constructor
    · intro h; cases h; exact ⟨[], .nil, rfl⟩
    · rintro ⟨rows, h, rfl⟩; cases h; rfl
  | cons a ms ih =>
    rw [Printer.foundAll]
    constructor
    · intro h
      obtain ⟨s, h1, h⟩ := bind_ok.mp h
      obtain ⟨t, h2, h⟩ := bind_ok.mp h
      obtain ⟨rows, h3, rfl⟩ := ih.mp h2
      exact ⟨s :: rows, .cons (matchRow_iff.mp h1) h3, (pure_ok.mp h).symm.trans (by simp)⟩
    · rintro ⟨rows, h, rfl⟩
      cases h with
      | cons h1 h2 =>
        exact bind_ok.mpr ⟨_, matchRow_iff.mpr h1, bind_ok.mpr ⟨_, ih.mpr ⟨_, h2, rfl⟩,
          pure_ok.mpr (by simp)⟩⟩

/-- The texts of the groups with matches, after `n` matches. -/
def groupTexts (n : Nat) (rows : List (List (List Char))) : List Char :=
  if n = 0 then ['\n'].intercalate ((rows.filter fun r => r ≠ []).map List.flatten)
  else (rows.filter fun r => r ≠ []).flatMap fun r => '\n' :: r.flatten

theorem intercalate_flatMap {sep a : List Char} {l : List (List Char)} :
    sep.intercalate (a :: l) = a ++ l.flatMap (sep ++ ·) := by
  induction l generalizing a with
  | nil => simp [List.intercalate]
  | cons b l ih =>
    have : sep.intercalate (a :: b :: l) = a ++ sep ++ sep.intercalate (b :: l) := by
      simp [List.intercalate, List.intersperse]
    rw [this, ih]
    simp

theorem groupTexts_cons {n : Nat} {r : List (List Char)} {rows : List (List (List Char))} :
    groupTexts n (r :: rows) = (if n > 0 ∧ r ≠ [] then ['\n'] else []) ++ r.flatten ++
      groupTexts (n + r.length) rows := by
  unfold groupTexts
  by_cases hr : r = []
  · subst hr
    simp
  · have hl : r.length ≠ 0 := by simpa using hr
    rw [List.filter_cons_of_pos (by simpa using hr)]
    by_cases hn : n = 0
    · subst hn
      rw [if_pos rfl, if_neg (by omega), if_neg (by omega), List.map_cons, intercalate_flatMap,
        List.flatMap_map]
      rfl
    · rw [if_neg hn, if_pos ⟨by omega, hr⟩, if_neg (by omega)]
      simp

theorem searchLoop_rows {x : ToolExt} {c : CommandLine} {L : Loaded} {p : TextParams}
    {find : List Char → Res (List Match)} {batches : List (List Char)} {n : Nat} {out : List Char} :
    (x.printer c L p).searchLoop find false n batches = .ok out ↔
      ∃ found rows, List.Forall₂ (fun b ms => find b = .ok ms) batches found ∧
        List.Forall₂ (List.Forall₂ (MatchRow x c L p)) found rows ∧ out = groupTexts n rows := by
  induction batches generalizing n out with
  | nil =>
    constructor
    · intro h
      cases h
      refine ⟨[], [], .nil, .nil, ?_⟩
      unfold groupTexts
      split <;> rfl
    · rintro ⟨found, rows, h1, h2, rfl⟩
      cases h1
      cases h2
      rw [Printer.searchLoop]
      unfold groupTexts
      split <;> rfl
  | cons b batches ih =>
    rw [Printer.searchLoop]
    constructor
    · intro h
      obtain ⟨ms, h1, h⟩ := bind_ok.mp h
      obtain ⟨s, h2, h⟩ := bind_ok.mp h
      obtain ⟨t, h3, h⟩ := bind_ok.mp h
      obtain ⟨r, h4, rfl⟩ := foundAll_rows.mp h2
      obtain ⟨found, rows, h5, h6, rfl⟩ := ih.mp h3
      refine ⟨ms :: found, r :: rows, .cons h1 h5, .cons h4 h6, ?_⟩
      rw [← pure_ok.mp h, groupTexts_cons, h4.length_eq]
      have : (!ms.isEmpty) = true ↔ r ≠ [] := by
        rw [← not_iff_not]
        simp only [Bool.not_eq_true, Bool.not_eq_false', List.isEmpty_iff, ne_eq, not_not]
        rw [← List.length_eq_zero_iff, h4.length_eq, List.length_eq_zero_iff]
      simp only [this]
      rfl
    · rintro ⟨found, rows, h5, h6, rfl⟩
      cases h5 with
      | @cons _ ms _ found h1 h5 =>
      cases h6 with
      | @cons _ r _ rows h4 h6 =>
        refine bind_ok.mpr ⟨_, h1, bind_ok.mpr ⟨_, foundAll_rows.mpr ⟨r, h4, rfl⟩, bind_ok.mpr
          ⟨_, ih.mpr ⟨_, _, h5, h6, rfl⟩, ?_⟩⟩⟩
        rw [groupTexts_cons, h4.length_eq]
        have : (!ms.isEmpty) = true ↔ r ≠ [] := by
          rw [← not_iff_not]
          simp only [Bool.not_eq_true, Bool.not_eq_false', List.isEmpty_iff, ne_eq, not_not]
          rw [← List.length_eq_zero_iff, h4.length_eq, List.length_eq_zero_iff]
        simp only [this]
        rfl

/-- **C88**: without `--json`, a search prints for each input file the rows of the matches that the
library finds in its groups of lines. -/
theorem search_run {x : ToolExt} (hf : ∀ s, ';' ∈ s → x.parseF32 s = none) (hpos : StrictMono x.pos)
    {c : CommandLine} (hc : Accepted c) (hsub : c.sub = .search) (hj : ¬ Given c .json)
    (files : List (List Char)) (s : List Char) (ws : List (List FileWrite)) :
    x.main c files = .ok (.output s ws) ↔
      ws = [] ∧ ∃ L w p cfg inputs texts, Asked x c L w p ∧ Settings x c L w cfg ∧
        InputsOf x files inputs ∧
        List.Forall₂ (SearchText x c L p (L.vm.findAllMatches x.text cfg p)) inputs texts ∧
        s = texts.flatten := by
  have hp : c.isPresent .json = false := by
    rw [← Bool.not_eq_true, isPresent_iff rfl]; exact hj
  have hper : c.isPresent .perLine = true ↔ Given c .perLine := isPresent_flag (by rw [hsub]; rfl)
  have hret : c.isPresent .retainLinebreaks = true ↔ Given c .retainLinebreaks :=
    isPresent_flag (by rw [hsub]; rfl)
  rw [main_output hf hpos hc (by rw [hsub]; decide) (by rw [hsub]; decide)]
  have one : ∀ (L : Loaded) (p : TextParams) (find : List Char → Res (List Match))
      (lines : List (Option (List Char))) (out : List Char),
      (x.printer c L p).processSearch find (c.isPresent .json) (!c.isPresent .retainLinebreaks)
        (c.isPresent .perLine) lines = .ok out ↔ SearchText x c L p find lines out := by
    intro L p find lines out
    obtain ⟨gs, hg, e⟩ := search_output (x.printer c L p) find (c.isPresent .json)
      (!c.isPresent .retainLinebreaks) (c.isPresent .perLine) lines
    rw [e, hp, searchLoop_rows]
    unfold SearchText
    have hsep : ∀ sep : Char,
        ((Given c .retainLinebreaks ∧ sep = '\n') ∨ (¬ Given c .retainLinebreaks ∧ sep = ' ')) ↔
          sep = if (!c.isPresent .retainLinebreaks) = true then ' ' else '\n' := by
      intro sep
      rw [← hret]
      cases c.isPresent .retainLinebreaks <;> simp
    constructor
    · rintro ⟨found, rows, h1, h2, h3⟩
      rw [List.forall₂_map_left_iff] at h1
      exact ⟨_, _, gs, found, rows, hper, (hsep _).mpr rfl, hg, h1, h2, h3⟩
    · rintro ⟨perLine, sep, gs', found, rows, g1, g2, g3, g4, g5, g6⟩
      rw [hsep] at g2
      have : perLine = c.isPresent .perLine := by
        rw [Bool.eq_iff_iff, g1, hper]
      subst this g2
      cases groups_unique hg g3
      refine ⟨found, rows, ?_, g5, g6⟩
      rw [List.forall₂_map_left_iff]
      exact g4
  have modes : ∀ L w p, x.modes c files L w p = .ok (.output s ws) ↔
      ws = [] ∧ ∃ inputs texts, InputsOf x files inputs ∧
        List.Forall₂ (SearchText x c L p (L.vm.findAllMatches x.text (x.config c L w) p)) inputs texts ∧
        s = texts.flatten := by
    intro L w p
    unfold ToolExt.modes
    rw [hsub, bind_ok]
    simp only [inputsOf_iff]
    constructor
    · rintro ⟨inputs, h1, h2⟩
      unfold ToolExt.search at h2
      obtain ⟨t, h3, h4⟩ := bind_ok.mp h2
      cases pure_ok.mp h4
      obtain ⟨texts, h5, h6⟩ := bind_ok.mp h3
      rw [collectSeq_ok, forall₂_congr (one L p _)] at h5
      have h6 := pure_ok.mp h6
      rw [hp] at h6
      exact ⟨rfl, inputs, texts, h1, h5, by simpa using h6.symm⟩
    · rintro ⟨rfl, inputs, texts, h1, h2, h3⟩
      refine ⟨inputs, h1, bind_ok.mpr ⟨s, bind_ok.mpr ⟨texts, ?_, ?_⟩, rfl⟩⟩
      · rw [collectSeq_ok, forall₂_congr (one L p _)]
        exact h2
      · refine pure_ok.mpr ?_
        rw [hp, h3]
        simp
  simp only [modes, settings_iff]
  constructor
  · rintro ⟨L, w, p, h1, h2, inputs, texts, h3⟩
    exact ⟨h2, L, w, p, _, inputs, texts, h1, rfl, h3⟩
  · rintro ⟨h2, L, w, p, _, inputs, texts, h1, rfl, h3⟩
    exact ⟨L, w, p, h1, h2, inputs, texts, h3⟩

/-- `search --alphabet a --errors e --lexicon l` -/
def exSearch : CommandLine := { exQuery with sub := .search }

/-- The lines of the file are joined, those of standard input are another text. -/
example : ∃ L w p cfg inputs texts, Asked exTool exSearch L w p ∧ Settings exTool exSearch L w cfg ∧
    InputsOf exTool [['q'], ['-']] inputs ∧
    List.Forall₂ (SearchText exTool exSearch L p (L.vm.findAllMatches exTool.text cfg p)) inputs texts ∧
    "ab\t0:2\tab\t1\t\nbb\t3:5\tb\t0.5\t\nb\t6:7\tb\t1\t\nba\t0:2\tb\t0.5\t\tab\t0.5\t\n".toList =
      texts.flatten :=
  ((search_run ex_noSemicolon ex_pos (accepted_of (by decide) (by decide)) rfl
      (not_given (by decide)) [['q'], ['-']] _ _).mp
      (show exTool.main exSearch [['q'], ['-']] = .ok (.output _ []) by decide +kernel)).2

/-- With `--per-line` there is an empty line between the texts of a file. -/
example : exTool.main { exSearch with given := (.perLine, []) :: exSearch.given } [['q'], ['-']] =
    .ok (.output ("ab\t0:2\tab\t1\t\n\nbb\t0:2\tb\t0.5\t\n\nb\t0:1\tb\t1\t\n".toList ++
      "ba\t0:2\tb\t0.5\t\tab\t0.5\t\n".toList) []) := by
  decide +kernel

end Verif.Props
