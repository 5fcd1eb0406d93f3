import Verif.Lemmas.JsonOut
import Verif.Lemmas.JsonScan
import Verif.Props.Vocab

/-!
# Properties of the command line tool (C60 – C63, C71 – C75)
-/
namespace Verif.Props

open Verif.Spec Verif.Model Verif.Lemmas

/-! ## An example -/

/-- A model with two words, of which the second contains a quote. -/
def exCliVm : Vm :=
  match (Vm.new exAlphabet).run [.add ['a', 'b'] none {}, .add ['a', '"'] none { index := 1 },
      .addVariant 3 ['b', 'a'] (1 / 2) none {}] with
  | .ok m => { m with lexicons := ["one".toList, "two".toList] }
  | .error _ => Vm.new exAlphabet

/-- A printer for it; all numbers are printed as `0.5`. -/
def exPrinter : Printer :=
  { vm := exCliVm, tags := ["person".toList], f64 := .exact, showF := fun _ => "0.5".toList,
    lexmatch := true, freqWeight := 0 }

/-- A search that finds the two words. -/
def exFind (_ : List Char) : Res (List VariantResult) :=
  .ok [⟨3, 1 / 2, 0, none⟩, ⟨4, 1 / 4, 0, some 3⟩]

theorem exPrinterOk : PrinterOk exPrinter where
  vocab := by unfold Plain; decide +kernel
  lexicons := by unfold Plain; decide +kernel
  tags := by unfold Plain; decide +kernel
  numbers := fun _ => by
    refine ⟨[], ['0'], ['.', '5'], [], by simp [exPrinter], .inl rfl, ⟨⟨by simp, by decide⟩, by simp⟩,
      .inr ⟨['5'], ⟨by simp, by decide⟩, rfl⟩, .inl rfl⟩

/-! ## C60: query mode in parallel -/

/-- **C60**: for input that can be read, the parallel query mode prints the same text as the sequential
one, whatever the order in which the workers finish. -/
theorem parallel_query (o : Printer) (find : List Char → Res (List VariantResult))
    (sched : Nat → List Nat) (hs : ∀ n, (sched n).Perm (List.range n)) (json : Bool)
    (lines : List (Option (List Char))) (hr : none ∉ lines) (out : List Char) :
    o.processPar find sched json lines = .ok out ↔ o.process find json 0 lines = .ok out := by
  obtain ⟨ls, rfl⟩ : ∃ ls : List (List Char), lines = ls.map some := by
    refine ⟨readable lines, ?_⟩
    induction lines with
    | nil => rfl
    | cons l lines ih =>
      simp only [List.mem_cons, not_or] at hr
      cases l with
      | none => exact absurd rfl hr.1
      | some l => simpa [readable] using ih hr.2
  have : readable (ls.map some) = ls := by simp [readable, List.filterMap_map]
  rw [Printer.processPar, parLoop_ok hs (by simp), process_some, this]

example : exPrinter.processPar exFind (fun n => (List.range n).reverse) true
      [some ['x'], some []] = exPrinter.process exFind true 0 [some ['x'], some []] ∧
    (exPrinter.process exFind true 0 [some ['x'], some []]).isOk := by
  decide +kernel

/-- A line that cannot be read stops the parallel mode (with a panic), while the sequential mode goes
on. -/
theorem unreadable_line_stops_parallel (o : Printer) (find : List Char → Res (List VariantResult))
    (sched : Nat → List Nat) (json : Bool) (lines : List (Option (List Char))) (hr : none ∈ lines)
    (out : List Char) : o.processPar find sched json lines ≠ .ok out := by
  have read : ∀ (n : Nat) (lines rest : List (Option (List Char))) (batch : List (List Char))
      (eof : Bool), readBatch n lines = .ok (batch, rest, eof) →
      lines = batch.map some ++ rest ∧ (eof = true → rest = []) := by
    intro n
    induction n with
    | zero => intro lines rest batch eof h; cases h; exact ⟨rfl, by simp⟩
    | succ n ih =>
      intro lines rest batch eof h
      cases lines with
      | nil => cases h; exact ⟨rfl, fun _ => rfl⟩
      | cons l lines =>
        cases l with
        | none => cases h
        | some l =>
          rw [readBatch] at h
          obtain ⟨⟨b, r, e⟩, h1, h2⟩ := bind_ok.mp h
          cases pure_ok.mp h2
          obtain ⟨h3, h4⟩ := ih _ _ _ _ h1
          exact ⟨by rw [h3]; rfl, h4⟩
  have loop : ∀ (fuel n : Nat) (lines : List (Option (List Char))), none ∈ lines → ∀ out,
      o.parLoop find sched json fuel n lines ≠ .ok out := by
    intro fuel
    induction fuel with
    | zero => intro n lines _ out h; cases h
    | succ fuel ih =>
      intro n lines hr out h
      rw [Printer.parLoop] at h
      obtain ⟨⟨batch, rest, eof⟩, h1, h⟩ := bind_ok.mp h
      obtain ⟨ps, h2, h⟩ := bind_ok.mp h
      obtain ⟨s, h3, h⟩ := bind_ok.mp h
      obtain ⟨h4, h5⟩ := read _ _ _ _ _ h1
      have hr' : none ∈ rest := by
        rw [h4] at hr
        simpa using hr
      cases eof with
      | true => rw [h5 rfl] at hr'; simp at hr'
      | false =>
        simp only [Bool.false_eq_true, if_false] at h
        obtain ⟨t, h6, _⟩ := bind_ok.mp h
        exact ih _ _ hr' _ h6
  exact loop _ _ _ hr out

example : exPrinter.processPar exFind List.range false [some ['x'], none] = .error .expect ∧
    (exPrinter.process exFind false 0 [some ['x'], none]).isOk := by
  decide +kernel

/-! ## C61: search mode -/

/-- **C61**: the texts given to the search are the lines before the first that cannot be read, divided
into groups; each group ends as `Groups` says, and is joined with the separator.  In particular the
loop ends (the fuel suffices). -/
theorem search_batches (sep : Char) (perLine : Bool) (lines : List (Option (List Char))) :
    ∃ gs, Groups perLine (untilError lines) gs ∧
      searchBatches sep perLine (lines.length + 1) lines = some (gs.map [sep].intercalate) :=
  searchBatches_spec (Nat.lt_succ_self _)

/-- **C61**: groups contain every line once, in order, and at most 100 each. -/
theorem groups_cover {perLine : Bool} {ls : List (List Char)} {gs : List (List (List Char))}
    (h : Groups perLine ls gs) : gs.flatten = ls ∧ ∀ g ∈ gs, g.length ≤ 100 := by
  induction h with
  | last h1 _ _ => exact ⟨by simp, by simp; omega⟩
  | full h1 _ _ _ _ ih =>
    refine ⟨by simp [ih.1], ?_⟩
    intro g hg
    rcases List.mem_cons.mp hg with rfl | hg
    · simpa using h1
    · exact ih.2 g hg

/-- **C61**: there is one way to form groups. -/
theorem groups_unique {perLine : Bool} {ls : List (List Char)} {gs gs' : List (List (List Char))}
    (h : Groups perLine ls gs) (h' : Groups perLine ls gs') : gs = gs' := by
  have stop : ∀ {g g' : List (List Char)} {l : List Char} {rest : List (List Char)},
      g' = g ++ l :: rest → (∀ l ∈ g', l ≠ []) → (perLine = true → g' = []) → g'.length < 100 →
      (g.length + 1 = 100 ∨ l = [] ∨ perLine = true) → False := by
    rintro g g' l rest rfl h1 h2 h3 h4
    rcases h4 with h4 | h4 | h4
    · simp at h3; omega
    · exact h1 l (by simp) h4
    · have := h2 h4; simp at this
  induction h generalizing gs' with
  | @last g h1 h2 h3 =>
    generalize hg : g = ls at h'
    cases h' with
    | last => rfl
    | @full g' l rest gs i1 i2 i3 i4 i5 => exact (stop hg h2 h3 h1 i4).elim
  | @full g l rest gs h1 h2 h3 h4 h5 ih =>
    generalize hg : g ++ l :: rest = ls at h'
    cases h' with
    | last i1 i2 i3 => exact (stop hg.symm i2 i3 i1 h4).elim
    | @full g' l' rest' gs' i1 i2 i3 i4 i5 =>
      have hlen : g.length = g'.length := by
        rcases Nat.lt_trichotomy g.length g'.length with hlt | he | hlt
        · obtain ⟨r, hr⟩ : ∃ r, g' = g ++ l :: r := by
            have := List.append_eq_append_iff.mp hg
            rcases this with ⟨a, e1, e2⟩ | ⟨a, e1, e2⟩
            · cases a with
              | nil => rw [e1] at hlt; simp at hlt
              | cons x a => simp at e2; exact ⟨a, by rw [e1, e2.1]⟩
            · rw [e1] at hlt; simp at hlt
          exact (stop hr i2 i3 (by omega) h4).elim
        · exact he
        · obtain ⟨r, hr⟩ : ∃ r, g = g' ++ l' :: r := by
            have := List.append_eq_append_iff.mp hg.symm
            rcases this with ⟨a, e1, e2⟩ | ⟨a, e1, e2⟩
            · cases a with
              | nil => rw [e1] at hlt; simp at hlt
              | cons x a => simp at e2; exact ⟨a, by rw [e1, e2.1]⟩
            · rw [e1] at hlt; simp at hlt
          exact (stop hr h2 h3 (by omega) i4).elim
      obtain ⟨rfl, e⟩ := List.append_inj hg hlen
      cases e
      rw [ih i5]

/-- **C61**: the search mode prints the matches of these texts. -/
theorem search_output (o : Printer) (find : List Char → Res (List Match)) (json nl perLine : Bool)
    (lines : List (Option (List Char))) :
    ∃ gs, Groups perLine (untilError lines) gs ∧
      o.processSearch find json nl perLine lines =
        o.searchLoop find json 0 (gs.map [if nl then ' ' else '\n'].intercalate) := by
  obtain ⟨gs, h1, h2⟩ := search_batches (if nl then ' ' else '\n') perLine lines
  exact ⟨gs, h1, by rw [Printer.processSearch, h2]⟩

example : searchBatches ' ' false 6 [some ['a'], some ['b'], some [], some ['c'], some ['d']] =
    some [['a', ' ', 'b', ' '], ['c', ' ', 'd']] := by decide +kernel

/-! ## C62: strings in JSON -/

/-- **C62**: a text between quotes, as it is printed, reads back as the same text if and only if it
contains no backslash and no control character (only quotes are escaped). -/
theorem json_text_reads_back_iff_partial (s : List Char) : StrText s (escapeQuotes s) ↔ Plain s := by
  refine ⟨fun h c hc => ?_, escapeQuotes_text⟩
  have h1 := strText_length h
  rw [escapeQuotes_length] at h1
  have key : ∀ s : List Char, s.countP special = s.countP (· == '"') +
      s.countP fun c => c == '\\' || decide (c.toNat < 0x20) := by
    intro s
    induction s with
    | nil => rfl
    | cons c s ih =>
      simp only [List.countP_cons, ih]
      by_cases h1 : c = '"'
      · subst h1; simp [special]; omega
      · by_cases h2 : c = '\\'
        · subst h2; simp [special]; omega
        · by_cases h3 : c.toNat < 0x20
          · simp [special, h1, h2, h3]; omega
          · simp [special, h1, h2, h3]
  rw [key] at h1
  have h2 : (s.countP fun c => c == '\\' || decide (c.toNat < 0x20)) = 0 := by omega
  have := List.countP_eq_zero.mp h2 c hc
  simp only [Bool.or_eq_true, beq_iff_eq, decide_eq_true_eq, not_or] at this
  exact ⟨this.1, by omega⟩

/-- **C62**: what is between quotes has at most one meaning. -/
theorem json_text_unique {s s' w : List Char} (h : StrText s w) (h' : StrText s' w) : s = s' :=
  strText_unique h h'

example : StrText ['a', '"', 'é'] ['a', '\\', '"', 'é'] :=
  (json_text_reads_back_iff_partial ['a', '"', 'é']).mpr (by unfold Plain; decide)

/-- **C62**, where it fails: `\n` (two characters) is printed as it is and reads as a newline; a text
that ends in a backslash is printed as something that is no string at all. -/
theorem json_backslash_misread : StrText ['\n'] (escapeQuotes ['\\', 'n']) ∧
    ¬ ∃ s, StrText s (escapeQuotes ['a', '\\']) := by
  refine ⟨.short (by decide) .nil, ?_⟩
  rintro ⟨s, h⟩
  have h1 := scan_str h
  exact absurd h1 (by decide)

/-! ## C63: the order of the variants -/

/-- **C63**: the listed variants are those of the result, each as often as there. -/
theorem listed_perm {variants l : List VariantResult} {selected : Option Nat}
    (h : Listed variants selected l) : l.Perm variants := by
  rcases h with ⟨i, r, _, h2, rfl⟩ | ⟨_, rfl⟩
  · obtain ⟨hi, rfl⟩ := List.getElem?_eq_some_iff.mp h2
    exact List.getElem_cons_eraseIdx_perm hi
  · exact .refl _

/-- **C63**: a TSV line is the input, the offset, and the variants with the selected one first. -/
theorem output_order_tsv (o : Printer) (input : List Char) (variants : List VariantResult)
    (selected : Option Nat) (offset : Option (Nat × Nat)) (out : List Char) :
    o.matchesTsv input (some variants) selected offset = .ok out ↔
      ∃ l parts, Listed variants selected l ∧ List.Forall₂ (fun r p => o.resultTsv r = .ok p) l parts ∧
        out = input ++ offsetTsv offset ++ parts.flatten ++ ['\n'] := by
  constructor
  · intro h
    obtain ⟨s, h1, h2⟩ := bind_ok.mp h
    obtain ⟨l, parts, h3, h4, rfl⟩ := variantsTsv_ok.mp h1
    exact ⟨l, parts, h3, h4, (pure_ok.mp h2).symm.trans (by simp)⟩
  · rintro ⟨l, parts, h3, h4, rfl⟩
    exact bind_ok.mpr ⟨_, variantsTsv_ok.mpr ⟨l, parts, h3, h4, rfl⟩, pure_ok.mpr (by simp)⟩

/-- **C63**: the variants of a JSON object, with the selected one first. -/
theorem output_order_json (o : Printer) (variants : List VariantResult) (selected : Option Nat)
    (out : List Char) : o.variantsJson selected variants = .ok out ↔
      ∃ l parts, Listed variants selected l ∧ List.Forall₂ (fun r p => o.resultJson r = .ok p) l parts ∧
        out = [',', '\n'].intercalate parts := by
  have : ",\n".toList = [',', '\n'] := by simp
  rw [← this]
  exact variantsJson_ok

example : ({ exPrinter with lexmatch := false } : Printer).matchesTsv ['x']
      (some [⟨3, 1 / 2, 0, none⟩, ⟨4, 1 / 4, 0, none⟩]) (some 1) (some (0, 12)) =
    .ok "x\t0:12\ta\"\t0.5\t\tab\t0.5\t\n".toList := by decide +kernel

/-! ## C71: JSON documents -/

/-- The output for a list of lines and their variants is a list of elements. -/
theorem printBatch_items (o : Printer) (ho : PrinterOk o) (ps : List (List Char × List VariantResult))
    (hp : ∀ p ∈ ps, Plain p.1) (n : Nat) (out : List Char) (h : o.printBatch true n ps = .ok out) :
    ∃ js, List.Forall₂ (fun p j => MatchValue o p.1 (some p.2) (some 0) none [] [] j) ps js ∧
      if n = 0 then Items js out else Tail js out := by
  induction ps generalizing n out with
  | nil =>
    cases h
    refine ⟨[], .nil, ?_⟩
    split
    · exact .inl ⟨rfl, ws_nil⟩
    · exact ⟨[], [], ws_nil, .nil, rfl⟩
  | cons p ps ih =>
    obtain ⟨input, vs⟩ := p
    obtain ⟨s, h1, h⟩ := bind_ok.mp h
    obtain ⟨t, h2, h⟩ := bind_ok.mp h
    obtain ⟨js, h3, h4⟩ := ih (fun q hq => hp q (by simp [hq])) _ _ h2
    rw [if_neg (by omega)] at h4
    rw [Printer.query, if_pos rfl] at h1
    obtain ⟨j, e, h5, h6, rfl⟩ := matchesJson_elem ho (hp (input, vs) (by simp)) rfl h1
    refine ⟨j :: js, .cons h5 h3, ?_⟩
    rw [← pure_ok.mp h]
    by_cases hn : n = 0
    · subst hn
      rw [if_pos rfl, if_neg (by omega)]
      exact .inr ⟨j, js, "    ".toList ++ e, t, rfl,
        elem_ws_left h6 (ws_spaces (by decide +kernel)), h4, by simp⟩
    · rw [if_neg hn, if_pos (by omega)]
      have := tail_cons (a := "    ".toList) (ws_spaces (by decide +kernel)) h6 h4
      simpa using this

theorem paired_fst {find : List Char → Res (List VariantResult)} {ls : List (List Char)}
    {ps : List (List Char × List VariantResult)} (h : collectSeq (paired find) ls = .ok ps) :
    List.Forall₂ (fun l p => p.1 = l ∧ find l = .ok p.2) ls ps := by
  rw [collectSeq_ok] at h
  refine h.imp ?_
  intro l p hp
  obtain ⟨vs, h1, h2⟩ := bind_ok.mp hp
  cases pure_ok.mp h2
  exact ⟨rfl, h1⟩

/-- **C71**: with texts in which only quotes need escapes, the JSON output of the query mode for one
input is a JSON document: an array with one object for each line that can be read, in order, listing
what was found. -/
theorem json_query_document (o : Printer) (ho : PrinterOk o)
    (find : List Char → Res (List VariantResult)) (lines : List (Option (List Char)))
    (hl : ∀ l, some l ∈ lines → Plain l) (out : List Char)
    (h : runFiles true (o.process find true 0) [lines] = .ok out) :
    ∃ js, Elem (.arr js) out ∧ List.Forall₂ (fun l j => ∃ vs, find l = .ok vs ∧
      MatchValue o l (some vs) (some 0) none [] [] j) (readable lines) js := by
  obtain ⟨outs, h1, h2⟩ := bind_ok.mp h
  rw [collectSeq_ok] at h1
  cases h1 with
  | cons h3 h4 =>
    cases h4
    obtain ⟨ps, h5, h6⟩ := process_some.mp h3
    have h7 := paired_fst h5
    have hp : ∀ p ∈ ps, Plain p.1 := by
      intro p hp
      obtain ⟨i, hi, rfl⟩ := List.getElem_of_mem hp
      obtain ⟨g1, g2⟩ := List.forall₂_iff_get.mp h7
      have := (g2 i (by rw [g1]; exact hi) hi).1
      simp only [List.get_eq_getElem] at this
      rw [this]
      have hm := List.getElem_mem (l := readable lines) (n := i) (by rw [g1]; exact hi)
      simp only [readable, List.mem_filterMap, id] at hm
      obtain ⟨x, hx, hx'⟩ := hm
      rw [hx'] at hx
      exact hl _ hx
    obtain ⟨js, h8, h9⟩ := printBatch_items o ho ps hp 0 _ h6
    rw [if_pos rfl] at h9
    refine ⟨js, ?_, ?_⟩
    · rw [← pure_ok.mp h2]
      simpa using items_document h9
    · clear h h2 h3 h5 h6 h9 hp hl
      generalize readable lines = ls at h7
      induction h7 generalizing js with
      | nil => cases h8; exact .nil
      | cons i1 _ ih =>
        cases h8 with
        | cons i2 i3 => exact .cons ⟨_, i1.2, i1.1 ▸ i2⟩ (ih _ i3)

example : ∃ js out, runFiles true (exPrinter.process exFind true 0) [[some ['x'], some ['"']]] = .ok out ∧
    Elem (.arr js) out ∧ js.length = 2 := by
  have hok : (runFiles true (exPrinter.process exFind true 0) [[some ['x'], some ['"']]]).isOk := by
    decide +kernel
  cases h : runFiles true (exPrinter.process exFind true 0) [[some ['x'], some ['"']]] with
  | error e => rw [h] at hok; cases hok
  | ok out =>
    obtain ⟨js, h1, h2⟩ := json_query_document exPrinter exPrinterOk exFind _ (by
      intro l hl; simp at hl; rcases hl with rfl | rfl <;> (unfold Plain; decide)) out h
    exact ⟨js, out, rfl, h1, h2.length_eq.symm⟩

/-- The output for a list of matches is a list of elements. -/
theorem foundAll_items (o : Printer) (ho : PrinterOk o) (ms : List Match)
    (hm : ∀ a ∈ ms, Plain a.text ∧ a.tag.length = a.seqnr.length) (n : Nat) (out : List Char)
    (h : o.foundAll true n ms = .ok out) :
    ∃ js, List.Forall₂ (fun (a : Match) j =>
        MatchValue o a.text a.variants a.selected (some (a.first, a.last)) a.tag a.seqnr j) ms js ∧
      if n = 0 then Items js out else Tail js out := by
  induction ms generalizing n out with
  | nil =>
    cases h
    refine ⟨[], .nil, ?_⟩
    split
    · exact .inl ⟨rfl, ws_nil⟩
    · exact ⟨[], [], ws_nil, .nil, rfl⟩
  | cons a ms ih =>
    obtain ⟨s, h1, h⟩ := bind_ok.mp h
    obtain ⟨t, h2, h⟩ := bind_ok.mp h
    obtain ⟨js, h3, h4⟩ := ih (fun q hq => hm q (by simp [hq])) _ _ h2
    rw [if_neg (by omega)] at h4
    rw [Printer.found, if_pos rfl] at h1
    obtain ⟨j, e, h5, h6, rfl⟩ := matchesJson_elem ho (hm a (by simp)).1 (hm a (by simp)).2 h1
    refine ⟨j :: js, .cons h5 h3, ?_⟩
    rw [← pure_ok.mp h]
    by_cases hn : n = 0
    · subst hn
      rw [if_pos rfl, if_neg (by omega)]
      exact .inr ⟨j, js, "    ".toList ++ e, t, rfl,
        elem_ws_left h6 (ws_spaces (by decide +kernel)), h4, by simp⟩
    · rw [if_neg hn, if_pos (by omega)]
      have := tail_cons (a := "    ".toList) (ws_spaces (by decide +kernel)) h6 h4
      simpa using this

theorem tail_ws {js : List Json} {t a : List Char} (h : Tail js t) (ha : Ws a) : Tail js (a ++ t) := by
  obtain ⟨b, u, h1, h2, rfl⟩ := h
  exact ⟨a ++ b, u, ws_append ha h1, h2, by simp⟩

theorem tail_append {js js' : List Json} {t t' : List Char} (h : Tail js t) (h' : Tail js' t') :
    Tail (js ++ js') (t ++ t') := by
  obtain ⟨a, u, h1, h2, rfl⟩ := h
  induction js generalizing u a with
  | nil => cases h2; simpa using tail_ws h' h1
  | cons j js ih =>
    cases h2 with
    | cons g1 g2 =>
      rename_i e v
      have := tail_cons h1 g1 (ih [] v ws_nil g2)
      simpa using this

theorem items_append {js js' : List Json} {t t' : List Char} (h : Items js t)
    (h' : if js = [] then Items js' t' else Tail js' t') : Items (js ++ js') (t ++ t') := by
  rcases h with ⟨rfl, h⟩ | ⟨j, js'', a, b, rfl, h1, h2, rfl⟩
  · rw [if_pos rfl] at h'
    rcases h' with ⟨rfl, g⟩ | ⟨j, js'', a, b, rfl, g1, g2, rfl⟩
    · exact .inl ⟨rfl, ws_append h g⟩
    · exact .inr ⟨j, js'', t ++ a, b, rfl, elem_ws_left g1 h, g2, by simp⟩
  · rw [if_neg (by simp)] at h'
    exact .inr ⟨j, js'' ++ js', a, b ++ t', by simp, h1, tail_append h2 h', by simp⟩

/-- **C71**: the JSON output of the search mode for one input is a JSON document: an array with one
object for each match, in order, with its text, offsets, tags and variants. -/
theorem json_search_document (o : Printer) (ho : PrinterOk o) (find : List Char → Res (List Match))
    (nl perLine : Bool) (lines : List (Option (List Char)))
    (hm : ∀ gs, Groups perLine (untilError lines) gs → ∀ g ∈ gs, ∀ ms,
      find ([if nl then ' ' else '\n'].intercalate g) = .ok ms →
      ∀ a ∈ ms, Plain a.text ∧ a.tag.length = a.seqnr.length) (out : List Char)
    (h : runFiles true (o.processSearch find true nl perLine) [lines] = .ok out) :
    ∃ gs mss js, Groups perLine (untilError lines) gs ∧
      List.Forall₂ (fun g ms => find ([if nl then ' ' else '\n'].intercalate g) = .ok ms) gs mss ∧
      Elem (.arr js) out ∧ List.Forall₂ (fun (a : Match) j =>
        MatchValue o a.text a.variants a.selected (some (a.first, a.last)) a.tag a.seqnr j)
        mss.flatten js := by
  obtain ⟨outs, h1, h2⟩ := bind_ok.mp h
  rw [collectSeq_ok] at h1
  cases h1 with
  | cons h3 h4 =>
    cases h4
    obtain ⟨gs, g1, g2⟩ := search_output o find true nl perLine lines
    rw [g2] at h3
    have loop : ∀ (batches : List (List Char)) (n : Nat) (out : List Char),
        (∀ b ∈ batches, ∀ ms, find b = .ok ms →
          ∀ a ∈ ms, Plain a.text ∧ a.tag.length = a.seqnr.length) →
        o.searchLoop find true n batches = .ok out →
        ∃ mss js, List.Forall₂ (fun b ms => find b = .ok ms) batches mss ∧
          List.Forall₂ (fun (a : Match) j =>
            MatchValue o a.text a.variants a.selected (some (a.first, a.last)) a.tag a.seqnr j)
            mss.flatten js ∧ if n = 0 then Items js out else Tail js out := by
      intro batches
      induction batches with
      | nil =>
        intro n out _ h
        cases h
        refine ⟨[], [], .nil, .nil, ?_⟩
        split
        · exact .inl ⟨rfl, ws_nil⟩
        · exact ⟨[], [], ws_nil, .nil, rfl⟩
      | cons b batches ih =>
        intro n out hb h
        obtain ⟨ms, i1, h⟩ := bind_ok.mp h
        obtain ⟨s, i2, h⟩ := bind_ok.mp h
        obtain ⟨t, i3, h⟩ := bind_ok.mp h
        obtain ⟨mss, js', k1, k2, k3⟩ := ih _ _ (fun b' hb' => hb b' (List.mem_cons_of_mem _ hb')) i3
        obtain ⟨js, k4, k5⟩ := foundAll_items o ho ms (hb b (by simp) ms i1) n s i2
        have hlen := k4.length_eq
        refine ⟨ms :: mss, js ++ js', .cons i1 k1, ?_, ?_⟩
        · rw [List.flatten_cons]
          exact List.rel_append k4 k2
        · rw [← pure_ok.mp h]
          by_cases hn : n = 0
          · subst hn
            rw [if_pos rfl] at k5 ⊢
            rw [if_neg (by simp)]
            refine items_append k5 ?_
            by_cases hj : js = []
            · rw [if_pos hj]
              have : ms.length = 0 := by rw [hlen, hj]; rfl
              rw [this, if_pos rfl] at k3
              exact k3
            · rw [if_neg hj]
              have : ms.length ≠ 0 := by rw [hlen]; simpa using hj
              rw [if_neg (by omega)] at k3
              exact k3
          · rw [if_neg hn] at k5 ⊢
            rw [if_neg (by omega)] at k3
            have hw : Ws (if n > 0 ∧ (!ms.isEmpty) = true then "\n".toList else []) := by
              split
              · exact ws_spaces (by decide +kernel)
              · exact ws_nil
            rw [List.append_assoc]
            exact tail_ws (tail_append k5 k3) hw
    obtain ⟨mss, js, k1, k2, k3⟩ := loop _ _ _ (by
      intro b hb
      obtain ⟨g, hg, rfl⟩ := List.mem_map.mp hb
      exact hm gs g1 g hg) h3
    rw [if_pos rfl] at k3
    refine ⟨gs, mss, js, g1, List.forall₂_map_left_iff.mp k1, ?_, k2⟩
    rw [← pure_ok.mp h2]
    simpa using items_document k3

/-- A search that finds a tagged word. -/
def exFindText (_ : List Char) : Res (List Match) :=
  .ok [{ text := ['"'], first := 0, last := 1, variants := some [⟨3, 1 / 2, 0, none⟩], selected := some 0,
         tag := [0], seqnr := [0] }]

example : ∃ gs mss js out,
    runFiles true (exPrinter.processSearch exFindText true true true) [[some ['x'], some ['y']]] = .ok out ∧
    Elem (.arr js) out ∧ Groups true [['x'], ['y']] gs ∧ mss.flatten.length = js.length ∧
    List.Forall₂ (fun g ms => exFindText ([' '].intercalate g) = .ok ms) gs mss := by
  have hok : (runFiles true (exPrinter.processSearch exFindText true true true)
      [[some ['x'], some ['y']]]).isOk := by decide +kernel
  cases h : runFiles true (exPrinter.processSearch exFindText true true true)
      [[some ['x'], some ['y']]] with
  | error e => rw [h] at hok; cases hok
  | ok out =>
    obtain ⟨gs, mss, js, h1, h2, h3, h4⟩ := json_search_document exPrinter exPrinterOk exFindText
      true true _ (by
      intro gs _ g _ ms hms a ha
      cases hms
      simp only [List.mem_singleton] at ha
      subst ha
      exact ⟨by unfold Plain; decide, rfl⟩) out h
    exact ⟨gs, mss, js, out, rfl, h3, h1, h4.length_eq, h2⟩

theorem matchValue_obj {o : Printer} {input : List Char} {variants : Option (List VariantResult)}
    {selected : Option Nat} {offset : Option (Nat × Nat)} {tag seqnr : List Nat} {j : Json}
    (h : MatchValue o input variants selected offset tag seqnr j) : ∃ ms, j = .obj ms := by
  obtain ⟨_, _, _, _, rfl⟩ := h
  exact ⟨_, rfl⟩

/-- After an object another one cannot follow. -/
theorem scan_obj_after {ms : List (List Char × Json)} {w : List Char} (h : Elem (.obj ms) w) :
    scan (.out '}') w = none := by
  obtain ⟨h1, h2, h3⟩ := h
  rename_i a v b
  rw [scan_append, scan_append, scan_ws h1]
  obtain ⟨v', rfl⟩ : ∃ v', v = '{' :: v' := by
    cases h2 with
    | objEmpty => exact ⟨_, rfl⟩
    | obj => exact ⟨_, rfl⟩
  simp [scan, scan1, isWs, badPair]

theorem scan_tail_objs {js : List Json} {t : List Char} (h : Tail js t) (hj : ∀ j ∈ js, ∃ ms, j = .obj ms) :
    scan (.out '}') t = some (.out '}') := by
  obtain ⟨a, u, h1, h2, rfl⟩ := h
  rw [scan_append, scan_ws h1]
  simp only [Option.bind]
  clear h1 a
  induction js generalizing u with
  | nil => cases h2; rfl
  | cons j js ih =>
    cases h2 with
    | cons g1 g2 =>
      obtain ⟨ms, rfl⟩ := hj j (by simp)
      rename_i e v
      have : scan1 (.out '}') ',' = some (.out ',') := by simp [scan1, isWs, badPair]
      rw [List.cons_append, scan]
      simp only [this]
      rw [scan_append, scan_obj g1 ',' (by decide)]
      exact ih (fun k hk => hj k (by simp [hk])) v g2

/-- Text in which the scanner stops is no JSON. -/
theorem not_json_of_scan {w : List Char} (h : scan (.out ':') w = none) : ¬ ∃ j, Elem j w := by
  rintro ⟨j, hj⟩
  obtain ⟨l, _, g⟩ := scan_elem hj ':' (by decide)
  rw [h] at g
  cases g

/-- **C71**, where it fails: with two input files that both have a line, the output of the query mode
is not JSON, as the numbering starts again and the comma between the objects is missing. -/
theorem json_two_files_malformed (o : Printer) (ho : PrinterOk o)
    (find : List Char → Res (List VariantResult)) (f f' : List (Option (List Char)))
    (hl : ∀ l, some l ∈ f ++ f' → Plain l) (hf : readable f ≠ []) (hf' : readable f' ≠ [])
    (rest : List (List (Option (List Char)))) (out : List Char)
    (h : runFiles true (o.process find true 0) (f :: f' :: rest) = .ok out) : ¬ ∃ j, Elem j out := by
  obtain ⟨outs, h1, h2⟩ := bind_ok.mp h
  rw [collectSeq_ok] at h1
  cases h1 with
  | cons a1 h1 =>
  cases h1 with
  | cons a2 h1 =>
    rename_i s1 s2 outs
    have key : ∀ (g : List (Option (List Char))) (s : List Char), (∀ l, some l ∈ g → Plain l) →
        readable g ≠ [] → o.process find true 0 g = .ok s →
        ∃ ms js e t, Elem (.obj ms) e ∧ (∀ j ∈ js, ∃ ms, j = .obj ms) ∧ Tail js t ∧ s = e ++ t := by
      intro g s hg hne hs
      obtain ⟨outs, h1⟩ : ∃ out, runFiles true (o.process find true 0) [g] = .ok out := by
        refine ⟨_, bind_ok.mpr ⟨[s], ?_, rfl⟩⟩
        rw [collectSeq_ok]
        exact .cons hs .nil
      obtain ⟨ps, h5, h6⟩ := process_some.mp hs
      have h7 := paired_fst h5
      have hp : ∀ p ∈ ps, Plain p.1 := by
        intro p hp
        obtain ⟨i, hi, rfl⟩ := List.getElem_of_mem hp
        obtain ⟨g1, g2⟩ := List.forall₂_iff_get.mp h7
        have := (g2 i (by rw [g1]; exact hi) hi).1
        simp only [List.get_eq_getElem] at this
        rw [this]
        have hm := List.getElem_mem (l := readable g) (n := i) (by rw [g1]; exact hi)
        simp only [readable, List.mem_filterMap, id] at hm
        obtain ⟨x, hx, hx'⟩ := hm
        rw [hx'] at hx
        exact hg _ hx
      obtain ⟨js, h8, h9⟩ := printBatch_items o ho ps hp 0 _ h6
      rw [if_pos rfl] at h9
      have hobj : ∀ j ∈ js, ∃ ms, j = .obj ms := by
        intro j hj
        obtain ⟨i, hi, rfl⟩ := List.getElem_of_mem hj
        obtain ⟨g1, g2⟩ := List.forall₂_iff_get.mp h8
        exact matchValue_obj (g2 i (by rw [g1]; exact hi) hi)
      rcases h9 with ⟨rfl, _⟩ | ⟨j, js', a, b, rfl, k1, k2, rfl⟩
      · cases h8
        cases h7' : readable g with
        | nil => exact absurd h7' hne
        | cons x xs => rw [h7'] at h7; cases h7
      · obtain ⟨ms, rfl⟩ := hobj j (by simp)
        exact ⟨ms, js', a, b, k1, fun j hj => hobj j (by simp [hj]), k2, rfl⟩
    obtain ⟨ms1, js1, e1, t1, b1, b2, b3, rfl⟩ := key f s1 (fun l hm => hl l (by simp [hm])) hf a1
    obtain ⟨ms2, js2, e2, t2, c1, c2, c3, rfl⟩ := key f' s2 (fun l hm => hl l (by simp [hm])) hf' a2
    apply not_json_of_scan
    rw [← pure_ok.mp h2]
    simp only [if_true, List.flatten_cons, List.append_assoc]
    rw [scan_append, show scan (.out ':') "[\n".toList = some (.out '[') by decide +kernel]
    simp only [Option.bind]
    rw [scan_append, scan_obj b1 _ (by decide)]
    simp only [Option.bind]
    rw [scan_append, scan_tail_objs b3 b2]
    simp only [Option.bind]
    rw [scan_append, scan_obj_after c1]
    rfl

example : ∃ out, runFiles true (exPrinter.process exFind true 0) [[some ['x']], [some ['y']]] = .ok out ∧
    ¬ ∃ j, Elem j out := by
  have hok : (runFiles true (exPrinter.process exFind true 0) [[some ['x']], [some ['y']]]).isOk := by
    decide +kernel
  cases h : runFiles true (exPrinter.process exFind true 0) [[some ['x']], [some ['y']]] with
  | error e => rw [h] at hok; cases hok
  | ok out =>
    exact ⟨out, rfl, json_two_files_malformed exPrinter exPrinterOk exFind _ _ (by
      intro l hl; simp at hl; rcases hl with rfl | rfl <;> (unfold Plain; decide))
      (by decide) (by decide) _ _ h⟩

/-! ## C72: the output of learning in JSON -/

/-- The object for a variant. -/
theorem variant_obj {text sc fr : List Char} (ht : Plain text) (hs : NumText sc) (hf : NumText fr) :
    Elem (.obj [("text".toList, .str text), ("score".toList, .num sc), ("freq".toList, .num fr)])
      ("{ \"text\": \"".toList ++ escapeQuotes text ++ "\", \"score\": ".toList ++ sc
        ++ ", \"freq\": ".toList ++ fr ++ " }".toList) := by
  have m1 := first_one (pre := " \"text\": ".toList) (key := "text".toList)
    (str_elem (escapeQuotes_text ht)) (by decide +kernel) (by unfold Plain; decide +kernel)
    (by decide +kernel)
  have m2 := more_one (pre := ", \"score\": ".toList) (key := "score".toList) (num_elem hs)
    (by decide +kernel) (by unfold Plain; decide +kernel) (by decide +kernel)
  have m3 := more_one (pre := ", \"freq\": ".toList) (key := "freq".toList) (num_elem hf)
    (by decide +kernel) (by unfold Plain; decide +kernel) (by decide +kernel)
  have := value_elem (value_obj_ws (a := [' ']) m1 (moreMembers_append m2 m3) (ws_spaces rfl))
  simpa using this

theorem split_text {A A1 A2 E E1 E2 t B s C f : List Char} (hA : A = A1 ++ A2) (hE : E = E1 ++ E2) :
    A ++ t ++ B ++ s ++ C ++ f ++ E = (A1 ++ (A2 ++ t ++ B ++ s ++ C ++ f ++ E1)) ++ E2 := by
  subst hA hE; simp only [List.append_assoc]

theorem variantsOf_mem {o : Printer} {refs : List VariantReference} {vs : List (VocabValue × Rat)}
    (h : o.variantsOf refs = .ok vs) : ∀ v ∈ vs, v.1 ∈ o.vm.decoder := by
  induction refs generalizing vs with
  | nil => cases h; simp
  | cons r refs ih =>
    cases r with
    | variantOf id s => exact ih h
    | referenceFor id s =>
      obtain ⟨v, h1, h⟩ := bind_ok.mp h
      obtain ⟨vs', h2, h⟩ := bind_ok.mp h
      rw [← pure_ok.mp h]
      intro x hx
      rcases List.mem_cons.mp hx with rfl | hx
      · exact List.mem_of_getElem? (vocab_ok h1)
      · exact ih h2 x hx

/-- **C72**: the JSON output of learning is never JSON once a variant is to be printed: each variant
is followed by a comma, also the last one of its list. -/
theorem json_learn_malformed (o : Printer) (ho : PrinterOk o) (out : List Char)
    (h : o.weightedJson = .ok out)
    (hv : ∃ item ∈ o.vm.decoder, ∃ id score, .referenceFor id score ∈ item.variants.getD []) :
    ¬ ∃ j, Elem j out := by
  obtain ⟨s, h1, h2⟩ := bind_ok.mp h
  have loop : ∀ (items : List VocabValue) (s : List Char), (∀ v ∈ items, v ∈ o.vm.decoder) →
      o.weightedJsonLoop items = .ok s →
      (∃ item ∈ items, ∃ id score, .referenceFor id score ∈ item.variants.getD []) → ∀ r,
      scan (.out '{') (s ++ r) = none := by
    intro items
    induction items with
    | nil => rintro s _ _ ⟨_, hm, _⟩; simp at hm
    | cons item items ih =>
      intro s hd h hv r
      obtain ⟨vs, i1, h⟩ := bind_ok.mp h
      obtain ⟨rest, i2, h⟩ := bind_ok.mp h
      rw [← pure_ok.mp h]
      by_cases he : vs = []
      · subst he
        obtain ⟨it, hit, id, score, hr⟩ := hv
        rcases List.mem_cons.mp hit with rfl | hit
        · exfalso
          revert i1 hr
          generalize it.variants.getD [] = refs
          clear h i2 hd ih
          induction refs with
          | nil => simp
          | cons x refs ihr =>
            intro hr i1
            cases x with
            | variantOf a b => exact ihr (by simpa using hr) i1
            | referenceFor a b =>
              obtain ⟨v, _, i1⟩ := bind_ok.mp i1
              obtain ⟨vs', _, i1⟩ := bind_ok.mp i1
              cases pure_ok.mp i1
        · simpa using ih rest (fun v hv => hd v (by simp [hv])) i2 ⟨it, hit, id, score, hr⟩ r
      · have hvs := variantsOf_mem i1
        have hemp : vs.isEmpty = false := by simpa using he
        rw [hemp]
        simp only [Bool.false_eq_true, if_false, List.append_assoc]
        -- the name of the item
        rw [scan_append, show scan (.out '{') "    \"".toList = some .inside by decide +kernel]
        simp only [Option.bind]
        rw [scan_append, scan_str (escapeQuotes_text (ho.vocab item (hd item (by simp))))]
        simp only [Option.bind]
        rw [scan_append, show scan .inside "\": [ \n".toList = some (.out '[') by decide +kernel]
        simp only [Option.bind]
        -- the variants
        have one : ∀ l, l ≠ '}' → ∀ v ∈ vs,
            scan (.out l) (o.variantJson v.1.text v.2 v.1.frequency) = some (.out ',') := by
          intro l hl v hv
          have e := variant_obj (ho.vocab v.1 (hvs v hv)) (ho.numbers v.2) (showN_num v.1.frequency)
          have e := scan_obj (elem_ws_left (a := "        ".toList) e (ws_spaces (by decide +kernel))) l hl
          have hsplit : o.variantJson v.1.text v.2 v.1.frequency =
              ("        ".toList ++ ("{ \"text\": \"".toList ++ escapeQuotes v.1.text
                ++ "\", \"score\": ".toList ++ o.showF v.2 ++ ", \"freq\": ".toList
                ++ showN v.1.frequency ++ " }".toList)) ++ ", \n".toList :=
            split_text (by decide +kernel) (by decide +kernel)
          rw [hsplit, scan_append, e]
          decide +kernel
        have many : ∀ us : List (VocabValue × Rat), (∀ v ∈ us, v ∈ vs) → us ≠ [] → ∀ l, l ≠ '}' →
            scan (.out l) (us.map fun v => o.variantJson v.1.text v.2 v.1.frequency).flatten =
              some (.out ',') := by
          intro us
          induction us with
          | nil => simp
          | cons u us ihu =>
            intro hm _ l hl
            rw [List.map_cons, List.flatten_cons, scan_append, one l hl u (hm u (by simp))]
            by_cases hu : us = []
            · subst hu; rfl
            · exact ihu (fun v hv => hm v (by simp [hv])) hu ',' (by decide)
        rw [scan_append, many vs (fun _ h => h) he '[' (by decide)]
        simp only [Option.bind]
        rw [scan_append, show scan (.out ',') "    ]\n".toList = none by decide +kernel]
        rfl
  apply not_json_of_scan
  rw [← pure_ok.mp h2, List.append_assoc, scan_append,
    show scan (.out ':') "{\n".toList = some (.out '{') by decide +kernel]
  exact loop _ s (fun _ h => h) h1 hv _

example : ∃ out, exPrinter.weightedJson = .ok out ∧ ¬ ∃ j, Elem j out := by
  have hok : exPrinter.weightedJson.isOk := by decide +kernel
  cases h : exPrinter.weightedJson with
  | error e => rw [h] at hok; cases hok
  | ok out =>
    refine ⟨out, rfl, json_learn_malformed exPrinter exPrinterOk out h ?_⟩
    exact ⟨exPrinter.vm.decoder[3]'(by decide +kernel), List.getElem_mem _, 5, 1 / 2, by decide +kernel⟩

/-- **C72**: the JSON output of learning is a JSON document if and only if there is nothing to print. -/
theorem json_learn_iff (o : Printer) (ho : PrinterOk o) (out : List Char) (h : o.weightedJson = .ok out) :
    (∃ j, Elem j out) ↔
      ∀ item ∈ o.vm.decoder, ∀ id score, .referenceFor id score ∉ item.variants.getD [] := by
  constructor
  · intro hj item hi id score hr
    exact json_learn_malformed o ho out h ⟨item, hi, id, score, hr⟩ hj
  · intro hn
    have none : ∀ refs : List VariantReference, (∀ id score, .referenceFor id score ∉ refs) →
        o.variantsOf refs = .ok [] := by
      intro refs
      induction refs with
      | nil => intro _; rfl
      | cons r refs ih =>
        intro hr
        cases r with
        | variantOf a b => exact ih fun id score hm => hr id score (by simp [hm])
        | referenceFor a b => exact absurd (by simp) (hr a b)
    have loop : ∀ items : List VocabValue,
        (∀ item ∈ items, ∀ id score, .referenceFor id score ∉ item.variants.getD []) →
        o.weightedJsonLoop items = .ok [] := by
      intro items
      induction items with
      | nil => intro _; rfl
      | cons item items ih =>
        intro hi
        rw [Printer.weightedJsonLoop, none _ (hi item (by simp)), ih fun i hm => hi i (by simp [hm])]
        rfl
    rw [Printer.weightedJson, loop _ hn] at h
    rw [← pure_ok.mp h]
    refine ⟨.obj [], ?_⟩
    have := elem_ws_right (a := ['\n']) (value_elem (Value.objEmpty (a := ['\n']) (ws_spaces rfl)))
      (ws_spaces rfl)
    simpa using this

example : (Printer.weightedJson { exPrinter with vm := Vm.new exAlphabet }) = .ok "{\n}\n".toList := by
  decide +kernel

/-! ## C73: testing the input -/

/-- **C73**: a line is reported as unknown if and only if its encoding contains a character no string of
the alphabet matches. -/
theorem testinput_unknown_iff (m : Vm) (hne : NoEmpty m.alphabet) (hlen : m.alphabet.length ≤ 167)
    (s : List Char) (cs : List Nat) (hs : Encodes m.alphabet m.alphabet.length s cs) :
    ∃ r, m.testinput s = .ok r ∧ (r = true ↔ m.alphabet.length ∈ cs) := by
  obtain ⟨cs', h', _⟩ := encoding_exists_unique m.alphabet hne (m.alphabet.length + 1) s
  have hn := (normalize_is_greedy_encoding m.alphabet hne (by omega) s cs').mpr h'
  have hw := encodes_within hs
  obtain ⟨r, h1, h2⟩ := contains_iff_subbag cs [m.alphabet.length]
    (fun i hi => by have := hw i hi; omega) (by intro i hi; simp at hi; omega)
  refine ⟨r, ?_, ?_⟩
  · have hsz : m.alphabetSize = .ok (m.alphabet.length + 1) := by
      rw [Vm.alphabetSize, Nat.mod_eq_of_lt (by omega), if_neg (by omega)]
    have hb : bagValue [m.alphabet.length] = symPrime m.alphabet.length := by simp [bagValue]
    rw [hb] at h1
    rw [Vm.testinput, anahash_value m.alphabet hlen s cs hs, hn, hsz]
    simp only [bind, Except.bind, Nat.add_sub_cancel, character_eq (show m.alphabet.length < 168 by omega)]
    exact h1
  · rw [h2]
    constructor
    · intro h; exact h.subset (by simp)
    · intro h; exact List.singleton_subperm_iff.mpr h

example : ∃ r, (Vm.new exAlphabet).testinput ['A', 'i', 'j', '?'] = .ok r ∧ (r = true ↔ 3 ∈ [0, 2, 3]) :=
  testinput_unknown_iff (Vm.new exAlphabet) (by decide) (by decide) _ _ (ex_encodes 3)

/-! ## C74: output to several files -/

theorem and_shift_value (n i : Nat) : n &&& (1 <<< i) = if n.testBit i then 2 ^ i else 0 := by
  apply Nat.eq_of_testBit_eq
  intro j
  rw [Nat.testBit_and, Nat.one_shiftLeft, Nat.testBit_two_pow]
  by_cases hj : i = j
  · subst hj; cases h : n.testBit i <;> simp
  · cases h : n.testBit i <;> simp [hj, Nat.testBit_two_pow]

/-- **C74**: in JSON, the files a variant is written to are those of the lexicons it is in. -/
theorem multi_output_json_partial (lexindex n : Nat) (l : List Nat) (h : lexiconsJson lexindex 0 n = .ok l)
    (i : Nat) : i ∈ l ↔ i < n ∧ lexindex.testBit i := by
  have gen : ∀ (n k : Nat) (l : List Nat), lexiconsJson lexindex k n = .ok l →
      ∀ i, i ∈ l ↔ k ≤ i ∧ i < k + n ∧ lexindex.testBit i := by
    intro n
    induction n with
    | zero => intro k l h i; cases h; simp; omega
    | succ n ih =>
      intro k l h i
      rw [lexiconsJson] at h
      split at h
      · cases h
      · obtain ⟨rest, h1, h2⟩ := bind_ok.mp h
        have := ih _ _ h1 i
        rw [← pure_ok.mp h2]
        by_cases hb : lexindex.testBit k = true
        · rw [if_pos ((and_shift _ _).mpr hb), List.mem_cons, this]
          constructor
          · rintro (rfl | ⟨_, _, _⟩)
            · exact ⟨Nat.le_refl _, by omega, hb⟩
            · exact ⟨by omega, by omega, by assumption⟩
          · rintro ⟨h1, h2, h3⟩
            by_cases hk : i = k
            · exact .inl hk
            · exact .inr ⟨by omega, by omega, h3⟩
        · rw [if_neg (fun h => hb ((and_shift _ _).mp h)), this]
          constructor
          · rintro ⟨_, _, _⟩
            exact ⟨by omega, by omega, by assumption⟩
          · rintro ⟨h1, h2, h3⟩
            have : i ≠ k := by rintro rfl; exact hb h3
            exact ⟨by omega, by omega, h3⟩
  simpa using gen n 0 l h i

example : lexiconsJson 5 0 3 = .ok [0, 2] := by decide +kernel

/-- **C74**, where it fails: in TSV, a variant is written to the file of the first lexicon exactly if it
is *not* in it, to that of the second if it is in it, and never to another. -/
theorem multi_output_tsv (lexindex n : Nat) (hb : lexindex < 2 ^ 32) (l : List Nat)
    (h : lexiconsTsv lexindex 0 n = .ok l) (i : Nat) :
    i ∈ l ↔ i < n ∧ ((i = 0 ∧ ¬ lexindex.testBit 0) ∨ (i = 1 ∧ lexindex.testBit 1)) := by
  have arith : ∀ i < 64, ((i <<< i) % 2 ^ 64 = 0 ↔ i = 0) ∧
      ((i <<< i) % 2 ^ 64 = 2 ^ i ↔ i = 1 ∨ i = 63) := by decide +kernel
  have one : ∀ i < 64, (lexindex &&& (1 <<< i) = (i <<< i) % 2 ^ 64 ↔
      ((i = 0 ∧ ¬ lexindex.testBit 0) ∨ (i = 1 ∧ lexindex.testBit 1))) := by
    intro i hi
    obtain ⟨h1, h2⟩ := arith i hi
    rw [and_shift_value]
    by_cases ht : lexindex.testBit i = true
    · rw [if_pos ht, eq_comm, h2]
      constructor
      · rintro (rfl | rfl)
        · exact .inr ⟨rfl, ht⟩
        · rw [Nat.testBit_lt_two_pow (Nat.lt_of_lt_of_le hb (by decide))] at ht; cases ht
      · rintro (⟨rfl, h⟩ | ⟨rfl, _⟩)
        · exact absurd ht h
        · exact .inl rfl
    · rw [if_neg ht, eq_comm, h1]
      constructor
      · rintro rfl; exact .inl ⟨rfl, ht⟩
      · rintro (⟨rfl, _⟩ | ⟨rfl, h⟩)
        · rfl
        · exact absurd h ht
  have gen : ∀ (n k : Nat) (l : List Nat), lexiconsTsv lexindex k n = .ok l →
      ∀ i, i ∈ l ↔ k ≤ i ∧ i < k + n ∧
        ((i = 0 ∧ ¬ lexindex.testBit 0) ∨ (i = 1 ∧ lexindex.testBit 1)) := by
    intro n
    induction n with
    | zero => intro k l h i; cases h; simp; omega
    | succ n ih =>
      intro k l h i
      rw [lexiconsTsv] at h
      split at h
      · cases h
      · obtain ⟨rest, h1, h2⟩ := bind_ok.mp h
        have hi := ih _ _ h1 i
        have hk := one k (by omega)
        rw [← pure_ok.mp h2]
        by_cases hc : lexindex &&& (1 <<< k) = (k <<< k) % 2 ^ 64
        · rw [if_pos hc, List.mem_cons, hi]
          have hk := hk.mp hc
          constructor
          · rintro (rfl | ⟨_, _, _⟩)
            · exact ⟨Nat.le_refl _, by omega, hk⟩
            · exact ⟨by omega, by omega, by assumption⟩
          · rintro ⟨h1, h2, h3⟩
            by_cases he : i = k
            · exact .inl he
            · exact .inr ⟨by omega, by omega, h3⟩
        · rw [if_neg hc, hi]
          constructor
          · rintro ⟨_, _, _⟩
            exact ⟨by omega, by omega, by assumption⟩
          · rintro ⟨h1, h2, h3⟩
            have : i ≠ k := by rintro rfl; exact hc (hk.mpr h3)
            exact ⟨by omega, by omega, h3⟩
  simpa using gen n 0 l h i

example : lexiconsTsv 5 0 3 = .ok [] ∧ lexiconsTsv 6 0 3 = .ok [0, 1] := by decide +kernel

/-- **C74**, where it fails: the object written to a file in JSON gives the frequency as the score and
the score as the frequency. -/
theorem multi_output_json_swapped (o : Printer) (text : List Char) (ht : Plain text) (score : Rat)
    (hs : NumText (o.showF score)) (freq : Nat) :
    ∃ t, o.variantLineJson text score freq = t ++ ", ".toList ∧
      Elem (.obj [("text".toList, .str text), ("score".toList, .num (showN freq)),
        ("freq".toList, .num (o.showF score))]) t := by
  have m1 := first_one (pre := " \"text\": ".toList) (key := "text".toList)
    (str_elem (escapeQuotes_text ht)) (by decide +kernel) (by unfold Plain; decide +kernel)
    (by decide +kernel)
  have hk : Plain "score".toList ∧ '"' ∉ "score".toList := ⟨by unfold Plain; decide +kernel, by decide +kernel⟩
  have m2 : MoreMembers [("score".toList, .num (showN freq))] (",  \"score\": ".toList ++ showN freq) := by
    have h1 : Member ("score".toList, .num (showN freq))
        ([' ', ' '] ++ '"' :: "score".toList ++ '"' :: [] ++ ':' :: ([' '] ++ showN freq)) :=
      .mk (ws_spaces rfl) (plain_text hk.1 hk.2) ws_nil
        (elem_ws_left (num_elem (showN_num freq)) (ws_spaces rfl))
    have := MoreMembers.cons h1 .nil
    simpa using this
  have m3 := more_one (pre := ", \"freq\": ".toList) (key := "freq".toList) (num_elem hs)
    (by decide +kernel) (by unfold Plain; decide +kernel) (by decide +kernel)
  have e := value_elem (value_obj_ws (a := [' ']) m1 (moreMembers_append m2 m3) (ws_spaces rfl))
  have he : Elem (.obj [("text".toList, .str text), ("score".toList, .num (showN freq)),
      ("freq".toList, .num (o.showF score))])
      ("{ \"text\": \"".toList ++ escapeQuotes text ++ "\",  \"score\": ".toList ++ showN freq
        ++ ", \"freq\": ".toList ++ o.showF score ++ " }".toList) := by
    simpa using e
  exact ⟨_, split_text (by decide +kernel) (by decide +kernel),
    elem_ws_left (a := "        ".toList) he (ws_spaces (by decide +kernel))⟩

example : ∃ t, exPrinter.variantLineJson ['a'] (1 / 2) 7 = t ++ ", ".toList ∧
    Elem (.obj [("text".toList, .str ['a']), ("score".toList, .num ['7']),
      ("freq".toList, .num "0.5".toList)]) t :=
  multi_output_json_swapped exPrinter ['a'] (by unfold Plain; decide) _ (exPrinterOk.numbers _) 7

/-! ## C75: rounds of learning -/

/-- **C75**: learning goes on for the given number of rounds, or until a round learns nothing; every
round starts from the model the previous one left. -/
theorem learn_rounds (learn : Vm → Res (Vm × Nat)) (n : Nat) (m m' : Vm) (counts : List Nat)
    (h : learnRounds learn n m = .ok (m', counts)) :
    counts.length ≤ n ∧ (counts.length < n → counts.getLast? = some 0) ∧
      (∀ c ∈ counts.dropLast, c ≠ 0) ∧
      ∃ ms : List Vm, ms.length = counts.length + 1 ∧ ms[0]? = some m ∧ ms[counts.length]? = some m' ∧
        ∀ (i : Nat) (a b : Vm) (c : Nat), ms[i]? = some a → ms[i + 1]? = some b → counts[i]? = some c →
          learn a = .ok (b, c) := by
  induction n generalizing m m' counts with
  | zero => cases h; exact ⟨by simp, by simp, by simp, [m], rfl, rfl, rfl, by simp⟩
  | succ n ih =>
    obtain ⟨⟨m1, c⟩, h1, h⟩ := bind_ok.mp h
    by_cases hc : c = 0
    · simp only [hc, if_true] at h
      cases pure_ok.mp h
      refine ⟨by simp, by simp, by simp, [m, m'], rfl, rfl, rfl, ?_⟩
      intro i a b d
      match i with
      | 0 => intro e1 e2 e3; cases e1; cases e2; cases e3; rw [h1, hc]
      | i + 1 => intro _ _ e3; simp at e3
    · simp only [hc, if_false] at h
      obtain ⟨⟨m2, cs⟩, h2, h⟩ := bind_ok.mp h
      cases pure_ok.mp h
      obtain ⟨i1, i2, i3, ms, i4, i5, i6, i7⟩ := ih _ _ _ h2
      refine ⟨by simpa using i1, ?_, ?_, m :: ms, by simp [i4], rfl, by simpa using i6, ?_⟩
      · intro hlt
        have := i2 (by simpa using hlt)
        cases cs with
        | nil => simp at this
        | cons x xs => simpa using this
      · intro d hd
        cases cs with
        | nil => simp at hd
        | cons x xs =>
          rw [List.dropLast_cons_of_ne_nil (by simp)] at hd
          rcases List.mem_cons.mp hd with rfl | hd
          · exact hc
          · exact i3 d hd
      · intro i a b d
        match i with
        | 0 =>
          intro e1 e2 e3
          cases e1; cases e3
          simp only [List.getElem?_cons_succ, i5] at e2
          cases e2
          exact h1
        | i + 1 =>
          intro e1 e2 e3
          exact i7 i a b d (by simpa using e1) (by simpa using e2) (by simpa using e3)

example : (learnRounds (fun m => .ok ({ m with lexicons := [] :: m.lexicons }, 2 - m.lexicons.length)) 9
    (Vm.new exAlphabet)).map (·.2) = .ok [2, 1, 0] := by decide +kernel

end Verif.Props
