import Verif.Spec.Spelling
import Verif.Props.Modes

/-!
# Spellings that the alphabet does not distinguish get the same variants (C128)
-/
namespace Verif.Props

open Verif.Spec Verif.Model Verif.Lemmas

/-- The anagram value in terms of the codes. -/
def hashCodes : List Nat → Nat → Res Nat
  | [], acc => .ok acc
  | i :: cs, acc =>
    match character (i % 256) with
    | .error e => .error e
    | .ok v => hashCodes cs (anaInsert acc v)

/-- The normalised text in terms of the codes. -/
def normCodes (alphabet : Alphabet) : List Nat → Res (List Nat)
  | [] => .ok []
  | i :: cs =>
    if i < alphabet.length then
      match normCodes alphabet cs with
      | .error e => .error e
      | .ok result => .ok (i % 256 :: result)
    else if alphabet.length % 256 + 1 ≥ 256 then .error .overflow
    else
      match normCodes alphabet cs with
      | .error e => .error e
      | .ok result => .ok ((alphabet.length % 256 + 1) :: result)

theorem anahash_codes {alphabet : Alphabet} {text : List Char} {codes : List Nat}
    (h : Encodes alphabet alphabet.length text codes) (acc : Nat) :
    anahashLoop alphabet text 0 acc = hashCodes codes acc := by
  induction h generalizing acc with
  | nil => rfl
  | @hit i e rest codes hf hne _ ih =>
    cases e with
    | nil => exact absurd rfl hne
    | cons c e =>
      have hm := matchAlphabet_hit hf 0
      simp only [List.cons_append] at hm ⊢
      simp only [anahashLoop, gt_iff_lt, Nat.lt_irrefl, if_false, hm, Nat.zero_add, hashCodes]
      cases character (i % 256) with
      | error e => rfl
      | ok v =>
        simp only [List.length_cons, Nat.add_eq_zero_iff, one_ne_zero, and_false, if_false, Nat.add_sub_cancel]
        rw [anahashLoop_skip, ih]
  | @miss c rest codes hm _ ih =>
    have hn := (matchAlphabet_none (k := 0)).mpr hm
    simp only [anahashLoop, gt_iff_lt, Nat.lt_irrefl, if_false, hn, hashCodes]
    cases character (alphabet.length % 256) with
    | error e => rfl
    | ok v => exact ih _

theorem normalize_codes {alphabet : Alphabet} {text : List Char} {codes : List Nat}
    (h : Encodes alphabet alphabet.length text codes) :
    normalizeLoop alphabet text 0 = normCodes alphabet codes := by
  induction h with
  | nil => rfl
  | @hit i e rest codes hf hne _ ih =>
    cases e with
    | nil => exact absurd rfl hne
    | cons c e =>
      have hm := matchAlphabet_hit hf 0
      simp only [List.cons_append] at hm ⊢
      simp only [normalizeLoop, gt_iff_lt, Nat.lt_irrefl, if_false, hm, Nat.zero_add, normCodes,
        List.length_cons, Nat.add_eq_zero_iff, one_ne_zero, and_false, Nat.add_sub_cancel]
      rw [if_pos (firstMatch_lt hf), normalizeLoop_skip, ih]
      cases normCodes alphabet codes <;> rfl
  | @miss c rest codes hm _ ih =>
    have hn := (matchAlphabet_none (k := 0)).mpr hm
    simp only [normalizeLoop, gt_iff_lt, Nat.lt_irrefl, if_false, hn, normCodes, ih]
    cases normCodes alphabet codes <;> rfl

theorem sameSpelling_nil {alphabet : Alphabet} {s t : List Char} (h : SameSpelling alphabet s t) :
    s = [] ↔ t = [] := by
  have key : ∀ {u : List Char} {codes : List Nat}, Encodes alphabet alphabet.length u codes →
      (u = [] ↔ codes = []) := by
    intro u codes h
    cases h with
    | nil => simp
    | hit _ hne _ => simp [hne]
    | miss _ _ => simp
  obtain ⟨codes, h1, h2⟩ := h
  rw [key h1, key h2]

theorem sameCase_eq {isLower : Char → Bool} {w : Weights} {alphabet : Alphabet} {s t : List Char}
    (h : SameSpelling alphabet s t) (hcase : w.case > 0 → SameCase isLower s t) (text : List Char) :
    sameCase isLower w text s = sameCase isLower w text t := by
  unfold sameCase
  split
  · next hw =>
    have hc := hcase hw
    have hn := sameSpelling_nil h
    cases s with
    | nil => rw [hn.mp rfl]
    | cons a s =>
      cases t with
      | nil => exact absurd (hn.mpr rfl) (by simp)
      | cons b t =>
        have := hc a (by simp) b (by simp)
        cases text with
        | nil => rfl
        | cons u text => simp only [List.head?_cons, this]
  · rfl

theorem gatherNode_same {m : Vm} {isLower : Char → Bool} {w : Weights} {qs : List Nat} {s t : List Char}
    (h : ∀ text, sameCase isLower w text s = sameCase isLower w text t) (n : Nat) (ids : List Nat) :
    m.gatherNode isLower w qs s n ids = m.gatherNode isLower w qs t n ids := by
  induction ids with
  | nil => rfl
  | cons id ids ih => simp only [Vm.gatherNode, ih, h]

theorem gatherInstances_same {m : Vm} {isLower : Char → Bool} {w : Weights} {qs : List Nat} {s t : List Char}
    (h : ∀ text, sameCase isLower w text s = sameCase isLower w text t) (n : Nat) (hs : List Nat) :
    m.gatherInstances isLower w qs s n hs = m.gatherInstances isLower w qs t n hs := by
  induction hs with
  | nil => rfl
  | cons a as ih => simp only [Vm.gatherInstances, ih, gatherNode_same h]

/-- **C128**: without confusables, the variants of a text depend only on its symbols, and, if the case of the
first letter has a weight, on that case: texts that the alphabet does not distinguish get the same variants,
with the same scores in the same order, or fail in the same way.  This holds in any state of the model. -/
theorem same_spelling_same_variants {m : Vm} {x : Ext} {cfg : Config} {p : Params} (hc : cfg.confusables = [])
    {s t : List Char} (h : SameSpelling m.alphabet s t)
    (hcase : cfg.weights.case > 0 → SameCase x.isLower s t) :
    m.findVariants x cfg p s = m.findVariants x cfg p t := by
  have hsc := sameCase_eq h hcase
  obtain ⟨codes, h1, h2⟩ := h
  have e1 : normalizeToAlphabet m.alphabet s = normalizeToAlphabet m.alphabet t :=
    (normalize_codes h1).trans (normalize_codes h2).symm
  have e2 : anahash m.alphabet s = anahash m.alphabet t := (anahash_codes h1 _).trans (anahash_codes h2 _).symm
  have e3 : m.findCandidates x cfg.weights p s = m.findCandidates x cfg.weights p t := by
    unfold Vm.findCandidates
    simp only [e1, e2, gatherInstances_same hsc]
  have e4 : ∀ l results mf ex, m.rankExpanded x.f64 cfg s l results mf ex =
      m.rankExpanded x.f64 cfg t l results mf ex := by
    intro l results mf ex
    simp only [Vm.rankExpanded, hc, List.isEmpty_nil, Bool.not_true, Bool.false_and, Bool.false_eq_true, if_false]
  have e5 : ∀ l, m.prune x.f64 cfg p s l = m.prune x.f64 cfg p t l := by
    intro l
    simp only [Vm.prune, hc, List.isEmpty_nil, Bool.not_true, Bool.false_and, Bool.false_eq_true, if_false]
  unfold Vm.findVariants
  rw [e3]
  simp only [Vm.scoreAndRank, e4, e5]

/-- **C128**: without `--confusables`, a query prints the same variants, with the same scores in the same order,
for two lines that the alphabet does not distinguish, if they begin with letters of the same case or the case has
no weight. -/
theorem same_spelling_same_columns {x : ToolExt} (hf : ∀ s, ';' ∈ s → x.parseF32 s = none)
    (hpos : StrictMono x.pos) (hb : x.load.isSpace '\\' = false)
    {c : CommandLine} (hc : Accepted c) (hsub : c.sub = .query) (hj : ¬ Given c .json)
    (hconf : ¬ Given c .confusables)
    {afile : List Char} {alines : List (Option (List Char))} {alphabet : Alphabet}
    (ha : (.alphabet, afile) ∈ c.given) (hal : x.load.file afile = some alines)
    (hae : List.Forall₂ (AlphabetLine x.load.isSpace) (nonEmpty alines) alphabet)
    {s t : List Char} (h : SameSpelling alphabet s t)
    (hcase : SameCase x.text.isLower s t ∨
      ∃ v, InForce c .weightCase "0.125".toList v ∧ x.parseF64 v = some (.fin 0))
    {cols : List (List Char)} : QueryPrints x c s cols ↔ QueryPrints x c t cols := by
  have key : ∀ {s t : List Char}, SameSpelling alphabet s t → (SameCase x.text.isLower s t ∨
      ∃ v, InForce c .weightCase "0.125".toList v ∧ x.parseF64 v = some (.fin 0)) →
      QueryPrints x c s cols → QueryPrints x c t cols := by
    intro s t h hcase hs
    obtain ⟨_, L, w, p, cfg, inputs, asked, hset, hin, _, rows, hrows, e⟩ :=
      (query_run (x := withLines x [s]) hf hpos hc hsub hj [] _ _).mp hs
    have hin : inputs = [[some s]] := by
      rcases hin with ⟨_, h⟩ | ⟨h, _⟩
      · exact h
      · exact absurd rfl h
    subst hin
    have hw : w.case > 0 → SameCase x.text.isLower s t := by
      intro hw
      rcases hcase with hcase | ⟨v, hv, hv'⟩
      · exact hcase
      · obtain ⟨u, hu, hu'⟩ := asked.weights.case
        have : u = v := by
          rcases hu with hu | ⟨hu, rfl⟩
          · rcases hv with hv | ⟨hv, _⟩
            · exact hc.2 _ (by decide) _ _ hu hv
            · exact absurd ⟨_, hu⟩ hv
          · rcases hv with hv | ⟨_, hv⟩
            · exact absurd ⟨_, hv⟩ hu
            · exact hv.symm
        subst this
        have hu' : x.parseF64 u = some (.fin w.case) := hu'
        rw [hv'] at hu'
        injection hu' with hu'
        injection hu' with hu'
        rw [← hu'] at hw
        exact absurd hw (lt_irrefl _)
    obtain ⟨args, la, _, _, lc, _, hL⟩ := asked.loaded
    have halpha : L.vm.alphabet = alphabet := by
      obtain ⟨lines, _, _, hl1, hl2, _⟩ := loaded_history hL
      have := hc.2 .alphabet (by decide) _ _ ha la
      have hl1 : x.load.file args.alphabet = some lines := hl1
      rw [← this, hal] at hl1
      cases hl1
      obtain ⟨es, _, e2, e3⟩ := read_alphabet_entries hb [] alines
      rw [show L.vm.alphabet = readAlphabet x.load.isSpace [] alines from hl2, e2, List.nil_append,
        e3 alphabet hae]
    have hnc : cfg.toConfig.confusables = [] := by
      obtain ⟨news, h1, h2⟩ := loaded_confusables hL
      have : args.confusables = [] := by
        rw [lc, List.filterMap_eq_nil_iff]
        rintro ⟨o, v⟩ hg
        by_cases ho : o = .confusables
        · subst ho
          exact absurd ⟨v, hg⟩ hconf
        · simp [ho]
      rw [this] at h1
      cases h1
      rw [hset.confusables, h2]
      rfl
    subst halpha
    cases hrows with
    | cons h1 h2 =>
      cases h2
      obtain ⟨vs, hv, cols', hcols, rfl⟩ := h1
      have e : cols.flatten = cols'.flatten := by simpa [List.append_assoc] using e
      unfold QueryPrints
      rw [e]
      refine (query_run (x := withLines x [t]) hf hpos hc hsub hj [] _ _).mpr ⟨rfl, L, w, p, cfg, [[some t]],
        ⟨asked.loaded, asked.weights, asked.params, asked.cutoff, asked.debug⟩,
        ⟨hset.weights, hset.confusables, hset.early, hset.script, hset.rules⟩,
        .inl ⟨rfl, rfl⟩, by simp, [t ++ cols'.flatten ++ ['\n']], .cons ⟨vs, ?_, cols', hcols, rfl⟩ .nil,
        by simp⟩
      rw [← hv]
      refine (same_spelling_same_variants hnc h ?_).symm
      rw [show cfg.toConfig.weights = w from hset.weights]
      exact hw
  refine ⟨key h hcase, key ?_ ?_⟩
  · obtain ⟨codes, h1, h2⟩ := h
    exact ⟨codes, h2, h1⟩
  · exact hcase.imp_left fun h a ha b hb => (h b hb a ha).symm

/-! ### Examples -/

/-- A query with the options of the example search. -/
abbrev exQueryW : CommandLine := asQuery exSearchW

/-- `bA!` and `ba?` are not distinguished by the alphabet with the lines `a A` and `b`. -/
theorem exSameSpelling : SameSpelling [["a".toList, "A".toList], ["b".toList]] "bA!".toList "ba?".toList := by
  have hb : ∀ r, FirstMatch [["a".toList, "A".toList], ["b".toList]] ("b".toList ++ r) 1 "b".toList := by
    intro r
    refine ⟨⟨[], [], rfl, by simp⟩, List.prefix_append _ _, ?_⟩
    intro j hj entry he x hx
    match j, hj with
    | 0, _ =>
      cases he
      have hx : x = ['a'] ∨ x = ['A'] := by simpa using hx
      rcases hx with rfl | rfl <;> simp [List.cons_prefix_cons]
  refine ⟨[1, 0, 2], ?_, ?_⟩
  · refine .hit (e := "b".toList) (rest := "A!".toList) (hb _) (by decide) ?_
    exact .hit (e := "A".toList) (rest := ['!']) ⟨⟨["a".toList], [], rfl, by decide⟩, by decide, by simp⟩
      (by decide) (.miss (by decide) .nil)
  · refine .hit (e := "b".toList) (rest := "a?".toList) (hb _) (by decide) ?_
    exact .hit (e := "a".toList) (rest := ['?']) ⟨⟨[], ["A".toList], rfl, by decide⟩, by decide, by simp⟩
      (by decide) (.miss (by decide) .nil)

theorem exAlphabetW : List.Forall₂ (AlphabetLine exToolR.load.isSpace)
    (nonEmpty [some "a\tA".toList, some ['b']]) [["a".toList, "A".toList], ["b".toList]] := by
  obtain ⟨entries, e1, e2, _⟩ := read_alphabet_entries (isSpace := exToolR.load.isSpace) rfl []
    [some "a\tA".toList, some ['b']]
  have he : entries = [["a".toList, "A".toList], ["b".toList]] := by
    rw [List.nil_append] at e2
    rw [← e2]
    decide
  rwa [he] at e1

example : QueryPrints (exToolT exLex6 exText2) exQueryW "bA!".toList ["\tba\t0.5\t".toList] ∧
    QueryPrints (exToolT exLex6 exText2) exQueryW "ba?".toList ["\tba\t0.5\t".toList] := by
  have h : QueryPrints (exToolT exLex6 exText2) exQueryW "bA!".toList ["\tba\t0.5\t".toList] := by
    unfold QueryPrints
    decide +kernel
  exact ⟨h, (same_spelling_same_columns (x := exToolT exLex6 exText2) ex_noSemicolon ex_pos rfl
    (accepted_of (by decide) (by decide)) rfl (not_given (by decide)) (not_given (by decide)) (afile := ['a'])
    (by decide) rfl exAlphabetW exSameSpelling (.inl (by unfold SameCase; decide))).mp h⟩

/-- In the library, with a model whose alphabet has three lines. -/
example : linked.findVariants exExt exConfig exParams "b?".toList =
    linked.findVariants exExt exConfig exParams "b!".toList := by
  have hb : ∀ r, FirstMatch exAlphabet ("b".toList ++ r) 1 "b".toList := by
    intro r
    refine ⟨⟨[], [], rfl, by simp⟩, List.prefix_append _ _, ?_⟩
    intro j hj entry he x hx
    match j, hj with
    | 0, _ =>
      cases he
      have hx : x = ['a'] ∨ x = ['A'] := by simpa using hx
      rcases hx with rfl | rfl <;> simp [List.cons_prefix_cons]
  exact same_spelling_same_variants rfl
    ⟨[1, 3], .hit (e := "b".toList) (rest := ['?']) (hb _) (by decide) (.miss (by decide) .nil),
      .hit (e := "b".toList) (rest := ['!']) (hb _) (by decide) (.miss (by decide) .nil)⟩
    fun _ => by unfold SameCase; decide

/-- The alphabet does not distinguish `a` and `A`. -/
theorem exSameLetter : SameSpelling [["a".toList, "A".toList], ["b".toList]] "a".toList "A".toList :=
  ⟨[0], .hit (e := "a".toList) (rest := []) ⟨⟨[], ["A".toList], rfl, by decide⟩, by decide, by simp⟩ (by decide) .nil,
    .hit (e := "A".toList) (rest := []) ⟨⟨["a".toList], [], rfl, by decide⟩, by decide, by simp⟩ (by decide) .nil⟩

/-- **C128**, the case of the first letter is needed: `a` and `A` are not distinguished by the alphabet, but the
word `a` has another score for them. -/
theorem spelling_case_matters :
    SameSpelling [["a".toList, "A".toList], ["b".toList]] "a".toList "A".toList ∧
    QueryPrints (exToolT exLex6 exText2) exQueryW "a".toList ["\ta\t1\t".toList] ∧
    ¬ QueryPrints (exToolT exLex6 exText2) exQueryW "A".toList ["\ta\t1\t".toList] := by
  refine ⟨exSameLetter, ?_, ?_⟩ <;> unfold QueryPrints <;> decide +kernel

/-- The example surroundings with edit scripts of one or two instructions. -/
def exToolQ : ToolExt :=
  { exToolT exLex6 exText2 with
    editScript := fun s t => if s = t then [.identity t] else [.deletion s, .insertion t] }

/-- The same query with `--weight-case 0.0`. -/
def exQueryZ : CommandLine := { exQueryW with given := (.weightCase, "0.0".toList) :: exQueryW.given }

/-- The same query with `--weight-case 0.0 --confusables c`. -/
def exQueryQ : CommandLine := { exQueryZ with given := (.confusables, ['c']) :: exQueryZ.given }

/-- If the case has no weight, it does not matter. -/
example : QueryPrints exToolQ exQueryZ "a".toList ["\ta\t1\t".toList] ∧
    QueryPrints exToolQ exQueryZ "A".toList ["\ta\t1\t".toList] := by
  have h : QueryPrints exToolQ exQueryZ "a".toList ["\ta\t1\t".toList] := by
    unfold QueryPrints
    decide +kernel
  exact ⟨h, (same_spelling_same_columns (x := exToolQ) ex_noSemicolon ex_pos rfl
    (accepted_of (by decide) (by decide)) rfl (not_given (by decide)) (not_given (by decide)) (afile := ['a'])
    (by decide) rfl exAlphabetW exSameLetter
    (.inr ⟨"0.0".toList, .inl (by decide), by decide +kernel⟩)).mp h⟩

/-- **C128**, the absence of confusables is needed: they compare the texts themselves. -/
theorem spelling_confusables_matter :
    QueryPrints exToolQ exQueryQ "a".toList ["\ta\t0.5\t".toList] ∧
    QueryPrints exToolQ exQueryQ "A".toList ["\ta\t1\t".toList] := by
  constructor <;> unfold QueryPrints <;> decide +kernel

end Verif.Props
