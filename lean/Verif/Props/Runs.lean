import Verif.Props.Printed

/-!
# What runs of the other subcommands print (C88)
-/
namespace Verif.Props

open Verif.Model Verif.Spec Verif.Lemmas

/-! ## Index and input test -/

/-- **C88**: `index` prints one row for each anagram value of the indexed entries that were loaded. -/
theorem index_run {x : ToolExt} (hpos : StrictMono x.pos)
    {c : CommandLine} (hc : Accepted c) (hsub : c.sub = .index) (files : List (List Char))
    (s : List Char) (ws : List (List FileWrite)) (h : x.main c files = .ok (.output s ws)) :
    ws = [] ∧ ∃ L, LoadedFor x c L ∧
      (L.vm.alphabet.length ≤ 167 → IndexText L.vm.alphabet L.vm.decoder s) := by
  unfold ToolExt.main at h
  obtain ⟨wl, _, h⟩ := bind_ok.mp h
  obtain ⟨d, _, h⟩ := bind_ok.mp h
  rw [if_neg (by rw [hsub]; decide)] at h
  unfold ToolExt.withModel at h
  obtain ⟨args, ha, h⟩ := bind_ok.mp h
  obtain ⟨L, hL, h⟩ := bind_ok.mp h
  obtain ⟨q, hq, h⟩ := bind_ok.mp h
  split at h
  · cases pure_ok.mp h
  obtain ⟨t, h1, h⟩ := bind_ok.mp h
  cases pure_ok.mp h
  refine ⟨rfl, L, (loadedFor_iff hpos hc).mpr ⟨args, ha, hL⟩, fun hlen => ?_⟩
  obtain ⟨_, ops, _, _, _, hne, hrun, _⟩ := loaded_history hL
  obtain ⟨keys, p, g1, g2, g3, g4⟩ := index_output L.vm.alphabet hne hlen ops x.orders x.orders L.vm hrun
  rw [g4] at h1
  exact ⟨keys, p, g1, g2, g3, (Except.ok.inj h1).symm⟩

/-- Three entries are indexed. -/
example : ∃ L, LoadedFor exTool exIndex L ∧ (L.vm.alphabet.length ≤ 167 →
    IndexText L.vm.alphabet L.vm.decoder "3\tb\n9\tbb\n6\tab\n".toList) :=
  (index_run ex_pos (c := exIndex) (accepted_of (by decide) (by decide)) rfl [] _ []
    (by decide +kernel)).2

theorem testinputLine_ok {m : Vm} (hne : NoEmpty m.alphabet) (hlen : m.alphabet.length ≤ 167)
    (s row : List Char) : m.testinputLine s = .ok row ↔ TestRow m.alphabet s row := by
  obtain ⟨cs, hs, hu⟩ := encoding_exists_unique m.alphabet hne m.alphabet.length s
  obtain ⟨cs', h', _⟩ := encoding_exists_unique m.alphabet hne (m.alphabet.length + 1) s
  have hn := (normalize_is_greedy_encoding m.alphabet hne (by omega) s cs').mpr h'
  obtain ⟨r, hr, hr'⟩ := testinput_unknown_iff m hne hlen s cs hs
  unfold Vm.testinputLine
  rw [anahash_value m.alphabet hlen s cs hs, hn, hr]
  simp only [bind, Except.bind, pure, Except.pure, Except.ok.injEq]
  by_cases hk : m.alphabet.length ∈ cs
  · rw [if_pos (hr'.mpr hk)]
    constructor
    · rintro rfl
      exact ⟨cs, hs, .inl ⟨hk, rfl⟩⟩
    · rintro ⟨cs2, g1, ⟨_, g2⟩ | ⟨g2, _⟩⟩
      · exact g2.symm
      · rw [hu cs2 g1] at g2
        exact absurd hk g2
  · rw [if_neg (fun e => hk (hr'.mp e))]
    have hcs : cs' = cs := by
      refine encodes_unique h' ?_
      have := (encodes_change hs (m.alphabet.length + 1)).resolve_right (Nat.lt_irrefl _)
      rwa [List.map_congr_left (g := id), List.map_id] at this
      intro i hi
      have h1 : i ≠ m.alphabet.length := fun e => hk (e ▸ hi)
      have h2 := encodes_within hs i hi
      rw [if_pos (by omega)]
      rfl
    rw [hcs]
    have e : "OK: ".toList ++ s ++ "\t".toList ++ showN (bagValue cs) ++ "\t".toList ++ showList cs
        ++ "\n".toList = "OK: ".toList ++ s ++ '\t' :: Nat.toDigits 10 (bagValue cs) ++
        "\t[".toList ++ [',', ' '].intercalate (cs.map (Nat.toDigits 10)) ++ "]\n".toList := by
      simp [showList, showN]
    rw [e]
    constructor
    · rintro rfl
      exact ⟨cs, hs, .inr ⟨hk, rfl⟩⟩
    · rintro ⟨cs2, g1, ⟨g2, _⟩ | ⟨_, g2⟩⟩
      · rw [hu cs2 g1] at g2
        exact absurd g2 hk
      · rw [hu cs2 g1] at g2
        exact g2.symm

theorem testinputLines_ok {m : Vm} (hne : NoEmpty m.alphabet) (hlen : m.alphabet.length ≤ 167)
    (lines : List (Option (List Char))) (s : List Char) : m.testinputLines lines = .ok s ↔
      ∃ rows, List.Forall₂ (TestRow m.alphabet) (readable lines) rows ∧ s = rows.flatten := by
  induction lines generalizing s with
  | nil =>
    rw [Vm.testinputLines]
    constructor
    · intro h; cases h; exact ⟨[], .nil, rfl⟩
    · rintro ⟨rows, h, rfl⟩; cases h; rfl
  | cons l lines ih =>
    cases l with
    | none => exact ih s
    | some l =>
      rw [Vm.testinputLines, bind_ok]
      simp only [testinputLine_ok hne hlen]
      constructor
      · rintro ⟨row, h1, h2⟩
        obtain ⟨rest, h3, h4⟩ := bind_ok.mp h2
        obtain ⟨rows, h5, rfl⟩ := (ih rest).mp h3
        exact ⟨row :: rows, .cons h1 h5, (pure_ok.mp h4).symm⟩
      · rintro ⟨rows, h, rfl⟩
        cases h with
        | cons h1 h2 => exact ⟨_, h1, bind_ok.mpr ⟨_, (ih _).mpr ⟨_, h2, rfl⟩, rfl⟩⟩

/-- **C88**: `testinput` prints the lines of standard input that have only characters of the alphabet,
with anagram value and encoding. -/
theorem testinput_run {x : ToolExt} (hb : x.load.isSpace '\\' = false)
    {c : CommandLine} (hc : Accepted c) (hsub : c.sub = .testinput)
    (hlen : ∀ a lines, (.alphabet, a) ∈ c.given → x.load.file a = some lines →
      (nonEmpty lines).length ≤ 167)
    (files : List (List Char)) (s : List Char) (ws : List (List FileWrite)) :
    x.main c files = .ok (.output s ws) ↔
      ws = [] ∧ (∃ ld lcs pre suf case, WeightRequest x.parseF64 c ld lcs pre suf case) ∧
        (c.debug = none ∨ ∃ v n, c.debug = some v ∧ NumberText 255 v n ∧ n ≤ 1) ∧
        ∃ a lines alphabet rows, (.alphabet, a) ∈ c.given ∧ x.load.file a = some lines ∧
          List.Forall₂ (AlphabetLine x.load.isSpace) (nonEmpty lines) alphabet ∧
          List.Forall₂ (TestRow alphabet) (readable x.stdin) rows ∧ s = rows.flatten := by
  have hal : ∀ a, (∃ args, c.loadArgs x.pos = .ok args ∧ args.alphabet = a) ↔ (.alphabet, a) ∈ c.given := by
    intro a
    have hv := valueOf_iff (c := c) (n := .alphabet) (l := .alphabet) (d := none) (v := a)
      (by cases c.sub <;> rfl) (hc.2 _ (by decide))
    simp only [reduceCtorEq, and_false, or_false] at hv
    rw [← hv]
    unfold CommandLine.loadArgs
    cases c.valueOf .alphabet with
    | none => simp
    | some b => simp
  have hm : ∀ a m, x.load.newModel a = .ok m ↔
      ∃ lines, x.load.file a = some lines ∧ m = Vm.new (readAlphabet x.load.isSpace [] lines) := by
    intro a m
    unfold LoadExt.newModel
    rw [bind_ok]
    simp only [open_ok, pure_ok]
    exact ⟨fun ⟨l, h1, h2⟩ => ⟨l, h1, h2.symm⟩, fun ⟨l, h1, h2⟩ => ⟨l, h1, h2.symm⟩⟩
  have hw : (∃ l, c.weights x.parseF64 = .ok l) ↔
      ∃ ld lcs pre suf case, WeightRequest x.parseF64 c ld lcs pre suf case := by
    constructor
    · rintro ⟨l, h⟩
      obtain ⟨_, _, _, _, _, rfl⟩ := weights_five h
      exact ⟨_, _, _, _, _, (command_line_weights hc _ _ _ _ _).mp h⟩
    · rintro ⟨_, _, _, _, _, h⟩
      exact ⟨_, (command_line_weights hc _ _ _ _ _).mpr h⟩
  have ht : ∀ a lines t, (.alphabet, a) ∈ c.given → x.load.file a = some lines →
      ((Vm.new (readAlphabet x.load.isSpace [] lines)).testinputLines x.stdin = .ok t ↔
        ∃ alphabet rows, List.Forall₂ (AlphabetLine x.load.isSpace) (nonEmpty lines) alphabet ∧
          List.Forall₂ (TestRow alphabet) (readable x.stdin) rows ∧ t = rows.flatten) := by
    intro a lines t h1 h2
    obtain ⟨entries, e1, e2, e3⟩ := read_alphabet_entries hb [] lines
    have hn := read_alphabet_noEmpty x.load.isSpace lines
    rw [List.nil_append] at e2
    rw [e2] at hn ⊢
    have hl : entries.length ≤ 167 := by rw [← e1.length_eq]; exact hlen a lines h1 h2
    rw [testinputLines_ok (m := Vm.new entries) hn hl]
    constructor
    · rintro ⟨rows, h3, h4⟩
      exact ⟨entries, rows, e1, h3, h4⟩
    · rintro ⟨entries', rows, h0, h3, h4⟩
      rw [e3 _ h0] at h3
      exact ⟨rows, h3, h4⟩
  unfold ToolExt.main
  rw [← hw, ← debugLevel_ok, bind_ok]
  constructor
  · rintro ⟨wl, h1, h⟩
    obtain ⟨d, h2, h⟩ := bind_ok.mp h
    rw [if_pos hsub] at h
    obtain ⟨args, h3, h⟩ := bind_ok.mp h
    obtain ⟨m, h4, h⟩ := bind_ok.mp h
    obtain ⟨t, h5, h⟩ := bind_ok.mp h
    cases pure_ok.mp h
    obtain ⟨lines, h6, rfl⟩ := (hm _ _).mp h4
    have ha := (hal _).mp ⟨args, h3, rfl⟩
    obtain ⟨alphabet, rows, h7⟩ := (ht _ _ _ ha h6).mp h5
    exact ⟨rfl, ⟨wl, h1⟩, ⟨d, h2⟩, _, lines, alphabet, rows, ha, h6, h7⟩
  · rintro ⟨rfl, ⟨wl, h1⟩, ⟨d, h2⟩, a, lines, alphabet, rows, ha, h6, h7⟩
    refine ⟨wl, h1, bind_ok.mpr ⟨d, h2, ?_⟩⟩
    rw [if_pos hsub]
    obtain ⟨args, h3, rfl⟩ := (hal a).mpr ha
    exact bind_ok.mpr ⟨args, h3, bind_ok.mpr ⟨_, (hm _ _).mpr ⟨lines, h6, rfl⟩, bind_ok.mpr
      ⟨s, (ht _ _ _ ha h6).mpr ⟨alphabet, rows, h7⟩, rfl⟩⟩⟩

/-- `testinput --alphabet a` -/
def exTestinput : CommandLine := { sub := .testinput, debug := some ['1'], given := [(.alphabet, ['a'])] }

/-- The third line is not printed, the second cannot be read. -/
example : ({ exTool with stdin := [some "ba".toList, none, some "a?".toList] } : ToolExt).main
    exTestinput [] = .ok (.output "OK: ba\t6\t[1, 0]\n".toList []) := by
  decide +kernel

example : ∃ a lines alphabet rows, (.alphabet, a) ∈ exTestinput.given ∧ exTool.load.file a = some lines ∧
    List.Forall₂ (AlphabetLine exTool.load.isSpace) (nonEmpty lines) alphabet ∧
    List.Forall₂ (TestRow alphabet) (readable exTool.stdin) rows ∧
    "OK: ba\t6\t[1, 0]\n".toList = rows.flatten := by
  refine ((testinput_run (x := exTool) (c := exTestinput) rfl (accepted_of (by decide) (by decide)) rfl ?_
    [] _ []).mp (by decide +kernel)).2.2.2
  intro a lines ha hl
  obtain rfl : a = ['a'] := by simpa [exTestinput] using ha
  cases hl
  decide

/-! ## Learning -/

theorem rounds_iff {learn : Vm → Res (Vm × Nat)} {n : Nat} {m m' : Vm} :
    (∃ counts, learnRounds learn n m = .ok (m', counts)) ↔
      Rounds (fun a b k => learn a = .ok (b, k)) n m m' := by
  induction n generalizing m with
  | zero =>
    rw [learnRounds]
    constructor
    · rintro ⟨_, h⟩; cases h; exact .none
    · intro h; cases h; exact ⟨_, rfl⟩
  | succ n ih =>
    rw [learnRounds]
    constructor
    · rintro ⟨counts, h⟩
      obtain ⟨⟨m1, k⟩, h1, h2⟩ := bind_ok.mp h
      by_cases hk : k = 0
      · simp only [hk, if_true] at h2
        cases pure_ok.mp h2
        rw [hk] at h1
        exact .last h1
      · simp only [hk, if_false] at h2
        obtain ⟨⟨m2, cs⟩, h3, h4⟩ := bind_ok.mp h2
        cases pure_ok.mp h4
        exact .more h1 hk (ih.mp ⟨_, h3⟩)
    · intro h
      cases h with
      | last h1 => exact ⟨[0], bind_ok.mpr ⟨_, h1, by simp [pure, Except.pure]⟩⟩
      | @more _ _ m1 _ k h1 hk h2 =>
        obtain ⟨cs, h3⟩ := ih.mpr h2
        refine ⟨k :: cs, bind_ok.mpr ⟨_, h1, ?_⟩⟩
        simp only [hk, if_false]
        exact bind_ok.mpr ⟨_, h3, rfl⟩

theorem variantsOf_iff {o : Printer} {v : VocabValue} {us : List (VocabValue × Rat)} :
    o.variantsOf (v.variants.getD []) = .ok us ↔
      List.Forall₂ (fun r u => o.vm.decoder[r.1]? = some u.1 ∧ u.2 = r.2) (refersTo v) us := by
  unfold refersTo
  generalize v.variants.getD [] = refs
  induction refs generalizing us with
  | nil =>
    rw [Printer.variantsOf]
    constructor
    · intro h; cases h; exact .nil
    · intro h; cases h; rfl
  | cons r refs ih =>
    cases r with
    | variantOf id score => rw [Printer.variantsOf, List.filterMap_cons]; exact ih
    | referenceFor id score =>
      rw [Printer.variantsOf, List.filterMap_cons]
      simp only
      constructor
      · intro h
        obtain ⟨u, h1, h2⟩ := bind_ok.mp h
        obtain ⟨us', h3, h4⟩ := bind_ok.mp h2
        cases pure_ok.mp h4
        refine .cons ⟨?_, rfl⟩ (ih.mp h3)
        unfold Printer.vocab at h1
        split at h1
        · cases h1; assumption
        · cases h1
      · intro h
        cases h with
        | @cons _ u _ us' h1 h2 =>
          obtain ⟨u, s⟩ := u
          obtain ⟨h3, rfl⟩ := h1
          refine bind_ok.mpr ⟨u, ?_, bind_ok.mpr ⟨us', ih.mpr h2, rfl⟩⟩
          unfold Printer.vocab
          simp only at h3
          rw [h3]

theorem weightedTsv_iff {o : Printer} {items : List VocabValue} {s : List Char} :
    o.weightedTsv items = .ok s ↔ ∃ found, Refer o.vm.decoder items found ∧
      s = (items.zip found).flatMap fun e => if e.2 = [] then [] else
        e.1.text ++ (e.2.flatMap fun u => '\t' :: u.1.text ++ '\t' :: o.showF u.2) ++ ['\n'] := by
  induction items generalizing s with
  | nil =>
    rw [Printer.weightedTsv]
    constructor
    · intro h; cases h; exact ⟨[], .nil, rfl⟩
    · rintro ⟨found, h, rfl⟩; cases h; rfl
  | cons v items ih =>
    have e : ∀ us : List (VocabValue × Rat),
        (if us.isEmpty then [] else v.text ++ (us.map fun v => "\t".toList ++ v.1.text ++ "\t".toList ++
          o.showF v.2).flatten ++ "\n".toList) = if us = [] then [] else
          v.text ++ (us.flatMap fun u => '\t' :: u.1.text ++ '\t' :: o.showF u.2) ++ ['\n'] := by
      intro us
      cases us with
      | nil => rfl
      | cons u us => simp [List.flatMap]
    rw [Printer.weightedTsv, bind_ok]
    simp only [variantsOf_iff]
    constructor
    · rintro ⟨us, h1, h2⟩
      obtain ⟨rest, h3, h4⟩ := bind_ok.mp h2
      obtain ⟨found, h5, rfl⟩ := ih.mp h3
      refine ⟨us :: found, .cons h1 h5, ?_⟩
      rw [List.zip_cons_cons, List.flatMap_cons, ← pure_ok.mp h4, e]
    · rintro ⟨found, h, rfl⟩
      cases h with
      | @cons _ us _ found h1 h2 =>
        refine ⟨us, h1, bind_ok.mpr ⟨_, ih.mpr ⟨found, h2, rfl⟩, ?_⟩⟩
        rw [e]
        rfl

theorem lexiconsTsv_iff {set n : Nat} {is : List Nat} : lexiconsTsv set 0 n = .ok is ↔
    n ≤ 64 ∧ is.Pairwise (· < ·) ∧ ∀ i, i ∈ is ↔ i < n ∧ WrittenTo set i := by
  have arith : ∀ i < 64, ((i <<< i) % 2 ^ 64 = 0 ↔ i = 0) ∧
      ((i <<< i) % 2 ^ 64 = 2 ^ i ↔ i = 1 ∨ i = 63) := by decide +kernel
  have one : ∀ i < 64, (set &&& (1 <<< i) = (i <<< i) % 2 ^ 64 ↔ WrittenTo set i) := by
    intro i hi
    obtain ⟨h1, h2⟩ := arith i hi
    rw [and_shift_value]
    unfold WrittenTo
    by_cases ht : set.testBit i = true
    · rw [if_pos ht, eq_comm, h2]
      constructor
      · rintro (rfl | rfl)
        · exact .inr (.inl ⟨rfl, ht⟩)
        · exact .inr (.inr ⟨rfl, ht⟩)
      · rintro (⟨rfl, h⟩ | ⟨rfl, _⟩ | ⟨rfl, _⟩)
        · exact absurd ht h
        · exact .inl rfl
        · exact .inr rfl
    · rw [if_neg ht, eq_comm, h1]
      constructor
      · rintro rfl; exact .inl ⟨rfl, ht⟩
      · rintro (⟨rfl, _⟩ | ⟨rfl, h⟩ | ⟨rfl, h⟩)
        · rfl
        · exact absurd h ht
        · exact absurd h ht
  have gen : ∀ (n k : Nat), k + n ≤ 64 → ∃ is, lexiconsTsv set k n = .ok is ∧ is.Pairwise (· < ·) ∧
      ∀ i, i ∈ is ↔ k ≤ i ∧ i < k + n ∧ WrittenTo set i := by
    intro n
    induction n with
    | zero => intro k _; exact ⟨[], rfl, .nil, by simp; omega⟩
    | succ n ih =>
      intro k hk
      obtain ⟨is, h1, h2, h3⟩ := ih (k + 1) (by omega)
      rw [lexiconsTsv, if_neg (by omega), h1]
      simp only [bind, Except.bind, pure, Except.pure]
      by_cases hw : WrittenTo set k
      · refine ⟨k :: is, by rw [if_pos ((one k (by omega)).mpr hw)], ?_, ?_⟩
        · rw [List.pairwise_cons]
          exact ⟨fun i hi => by have := (h3 i).mp hi; omega, h2⟩
        · intro i
          rw [List.mem_cons, h3]
          constructor
          · rintro (rfl | ⟨_, _, _⟩)
            · exact ⟨Nat.le_refl _, by omega, hw⟩
            · exact ⟨by omega, by omega, by assumption⟩
          · rintro ⟨g1, g2, g3⟩
            by_cases he : i = k
            · exact .inl he
            · exact .inr ⟨by omega, by omega, g3⟩
      · refine ⟨is, by rw [if_neg (fun h => hw ((one k (by omega)).mp h))], h2, ?_⟩
        intro i
        rw [h3]
        constructor
        · rintro ⟨_, _, _⟩
          exact ⟨by omega, by omega, by assumption⟩
        · rintro ⟨g1, g2, g3⟩
          have : i ≠ k := by rintro rfl; exact hw g3
          exact ⟨by omega, by omega, g3⟩
  have over : ∀ (n k : Nat), k ≤ 64 → k + n > 64 → ∃ e, lexiconsTsv set k n = .error e := by
    intro n
    induction n with
    | zero => intro k h1 h2; omega
    | succ n ih =>
      intro k h1 h2
      rw [lexiconsTsv]
      split
      · exact ⟨_, rfl⟩
      · obtain ⟨e, he⟩ := ih (k + 1) (by omega) (by omega)
        rw [he]
        exact ⟨e, rfl⟩
  by_cases hn : n ≤ 64
  · obtain ⟨is', h1, h2, h3⟩ := gen n 0 (by omega)
    rw [h1]
    simp only [Nat.zero_le, true_and, Nat.zero_add] at h3
    constructor
    · intro h; cases h; exact ⟨hn, h2, h3⟩
    · rintro ⟨_, g1, g2⟩
      have : is' = is := by
        refine ((List.perm_ext_iff_of_nodup (h2.imp fun h => Nat.ne_of_lt h)
          (g1.imp fun h => Nat.ne_of_lt h)).mpr fun i => (h3 i).trans (g2 i).symm).eq_of_pairwise ?_
          h2 g1
        intro a b _ _ h1 h2
        omega
      rw [this]
  · obtain ⟨e, he⟩ := over n 0 (by omega) (by omega)
    rw [he]
    simp [hn]

/-- The line of C88 for a variant in a file. -/
theorem writesTsv_iff {o : Printer} {u : VocabValue × Rat} {l : List FileWrite} :
    o.writesTsv u.1 u.2 = .ok l ↔ o.vm.lexicons.length ≤ 64 ∧
      ∃ is : List Nat, is.Pairwise (· < ·) ∧
        (∀ i, i ∈ is ↔ i < o.vm.lexicons.length ∧ WrittenTo u.1.lexindex i) ∧
        l = is.map fun i => (i, '\t' :: u.1.text ++ '\t' :: o.showF u.2 ++
          '\t' :: Nat.toDigits 10 u.1.frequency ++ ['\n']) := by
  unfold Printer.writesTsv
  rw [bind_ok]
  have e : ∀ is : List Nat, (∀ i ∈ is, i < 64) →
      (is.map fun i => (i % 256, o.variantLineTsv u.1.text u.2 u.1.frequency)) =
      is.map fun i => (i, '\t' :: u.1.text ++ '\t' :: o.showF u.2 ++
          '\t' :: Nat.toDigits 10 u.1.frequency ++ ['\n']) := by
    intro is h
    refine List.map_congr_left fun i hi => ?_
    rw [Nat.mod_eq_of_lt (by have := h i hi; omega)]
    simp [Printer.variantLineTsv, showN]
  constructor
  · rintro ⟨is, h1, h2⟩
    obtain ⟨g1, g2, g3⟩ := lexiconsTsv_iff.mp h1
    refine ⟨g1, is, g2, g3, ?_⟩
    rw [← pure_ok.mp h2, e]
    intro i hi
    have := (g3 i).mp hi
    omega
  · rintro ⟨g1, is, g2, g3, rfl⟩
    refine ⟨is, lexiconsTsv_iff.mpr ⟨g1, g2, g3⟩, pure_ok.mpr (e is ?_)⟩
    intro i hi
    have := (g3 i).mp hi
    omega

theorem writesAll_iff {w : VocabValue → Rat → Res (List FileWrite)} {us : List (VocabValue × Rat)}
    {ws : List FileWrite} : Printer.writesAll w us = .ok ws ↔
      ∃ files, List.Forall₂ (fun (u : VocabValue × Rat) l => w u.1 u.2 = .ok l) us files ∧
        ws = files.flatten := by
  induction us generalizing ws with
  | nil =>
    rw [Printer.writesAll]
    constructor
    · intro h; cases h; exact ⟨[], .nil, rfl⟩
    · rintro ⟨_, h, rfl⟩; cases h; rfl
  | cons u us ih =>
    rw [Printer.writesAll, bind_ok]
    constructor
    · rintro ⟨l, h1, h2⟩
      obtain ⟨rest, h3, h4⟩ := bind_ok.mp h2
      obtain ⟨files, h5, rfl⟩ := ih.mp h3
      exact ⟨l :: files, .cons h1 h5, (pure_ok.mp h4).symm⟩
    · rintro ⟨_, h, rfl⟩
      cases h with
      | cons h1 h2 => exact ⟨_, h1, bind_ok.mpr ⟨_, ih.mpr ⟨_, h2, rfl⟩, rfl⟩⟩

theorem multiTsv_iff {o : Printer} {items : List VocabValue} {s : List Char} {ws : List FileWrite} :
    o.multiTsv items = .ok (s, ws) ↔ ∃ found files, Refer o.vm.decoder items found ∧
      s = ((items.zip found).flatMap fun e => if e.2 = [] then [] else e.1.text ++ ['\n']) ∧
      List.Forall₂ (fun (u : VocabValue × Rat) l => o.writesTsv u.1 u.2 = .ok l) found.flatten files ∧
      ws = files.flatten := by
  induction items generalizing s ws with
  | nil =>
    rw [Printer.multiTsv]
    constructor
    · intro h; cases h; exact ⟨[], [], .nil, rfl, .nil, rfl⟩
    · rintro ⟨_, _, h, rfl, h', rfl⟩; cases h; cases h'; rfl
  | cons v items ih =>
    rw [Printer.multiTsv, bind_ok]
    simp only [variantsOf_iff]
    constructor
    · rintro ⟨us, h1, h2⟩
      obtain ⟨ws1, h3, h4⟩ := bind_ok.mp h2
      obtain ⟨⟨s2, ws2⟩, h5, h6⟩ := bind_ok.mp h4
      cases pure_ok.mp h6
      obtain ⟨files1, h7, rfl⟩ := writesAll_iff.mp h3
      obtain ⟨found, files2, h8, rfl, h9, rfl⟩ := ih.mp h5
      refine ⟨us :: found, files1 ++ files2, .cons h1 h8, ?_, ?_, by simp⟩
      · rw [List.zip_cons_cons, List.flatMap_cons]
        cases us <;> rfl
      · rw [List.flatten_cons]
        exact List.rel_append h7 h9
    · rintro ⟨_, files, h, rfl, h', rfl⟩
      cases h with
      | @cons _ us _ found h1 h2 =>
        rw [List.flatten_cons] at h'
        have h3 := (List.forall₂_take_append files _ _ h'.flip).flip
        have h4 := (List.forall₂_drop_append files _ _ h'.flip).flip
        refine ⟨us, h1, bind_ok.mpr ⟨_, writesAll_iff.mpr ⟨_, h3, rfl⟩, bind_ok.mpr
          ⟨_, ih.mpr ⟨found, _, h2, rfl, h4, rfl⟩, pure_ok.mpr ?_⟩⟩⟩
        rw [List.zip_cons_cons, List.flatMap_cons, ← List.flatten_append, List.take_append_drop]
        cases us <;> rfl

theorem learned_iff {o : Printer} {multi : Bool} {s : List Char} {ws : List FileWrite} :
    o.learned false multi = .ok (s, ws) ↔
      if multi then LearnFiles o.showF o.vm s ws else LearnText o.showF o.vm s ws := by
  cases multi with
  | true =>
    rw [if_pos rfl]
    show o.multiTsv o.vm.decoder = _ ↔ _
    rw [multiTsv_iff]
    unfold LearnFiles
    simp only [forall₂_congr fun (u : VocabValue × Rat) l => writesTsv_iff (o := o) (u := u) (l := l)]
  | false =>
    rw [if_neg (by simp)]
    show (do let s ← o.weightedTsv o.vm.decoder; return (s, [])) = _ ↔ _
    rw [bind_ok]
    simp only [weightedTsv_iff]
    constructor
    · rintro ⟨t, ⟨found, h1, rfl⟩, h2⟩
      cases pure_ok.mp h2
      exact ⟨rfl, found, h1, rfl⟩
    · rintro ⟨rfl, found, h1, rfl⟩
      exact ⟨_, ⟨found, h1, rfl⟩, rfl⟩

theorem learnInputs_iff {x : ToolExt} {cfg : TextConfig} {p : TextParams} {o : Printer} {n : Nat}
    {multi strict : Bool} {m : Vm} {inputs : List (List (Option (List Char)))} {s : List Char}
    {ws : List (List FileWrite)} :
    x.learnInputs cfg p o n false multi strict m inputs = .ok (s, ws) ↔
      ∃ texts, LearnAll (fun lines a b k => a.learnFrom x.text cfg p lines strict true x.orders = .ok (b, k))
        n (fun m s ws => if multi then LearnFiles o.showF m s ws else LearnText o.showF m s ws)
        m inputs texts ws ∧ s = texts.flatten := by
  have hu : ∀ lines, linesUntilError lines = untilError lines := by
    intro lines
    induction lines with
    | nil => rfl
    | cons l lines ih =>
      cases l with
      | none => rfl
      | some l => rw [linesUntilError, ih]; rfl
  induction inputs generalizing m s ws with
  | nil =>
    rw [ToolExt.learnInputs]
    constructor
    · intro h; cases h; exact ⟨[], .nil, rfl⟩
    · rintro ⟨_, h, rfl⟩; cases h; rfl
  | cons lines inputs ih =>
    rw [ToolExt.learnInputs, bind_ok]
    constructor
    · rintro ⟨⟨m', s1, w1⟩, h1, h2⟩
      obtain ⟨⟨s2, w2⟩, h3, h4⟩ := bind_ok.mp h2
      cases pure_ok.mp h4
      obtain ⟨⟨m'', counts⟩, h5, h6⟩ := bind_ok.mp h1
      obtain ⟨⟨s3, w3⟩, h7, h8⟩ := bind_ok.mp h6
      cases pure_ok.mp h8
      obtain ⟨texts, h9, rfl⟩ := ih.mp h3
      refine ⟨s1 :: texts, .cons (rounds_iff.mp ⟨counts, ?_⟩)
        ((learned_iff (o := { o with vm := m' })).mp h7) h9, rfl⟩
      rw [← hu]
      exact h5
    · rintro ⟨_, h, rfl⟩
      cases h with
      | @cons _ m' _ _ s1 texts w1 w2 h1 h2 h3 =>
        rw [← hu] at h1
        obtain ⟨counts, h4⟩ := rounds_iff.mpr h1
        exact ⟨(m', s1, w1), bind_ok.mpr ⟨_, h4, bind_ok.mpr ⟨(s1, w1),
          (learned_iff (o := { o with vm := m' })).mpr h2, rfl⟩⟩,
          bind_ok.mpr ⟨_, ih.mpr ⟨texts, h3, rfl⟩, rfl⟩⟩

/-- **C88**: without `--json`, `learn` learns from each input in turn, with the number of rounds asked for,
and reports after each input all words that have variants, or with `--multi-output` writes the variants
to files. -/
theorem learn_run {x : ToolExt} (hf : ∀ s, ';' ∈ s → x.parseF32 s = none) (hpos : StrictMono x.pos)
    {c : CommandLine} (hc : Accepted c) (hsub : c.sub = .learn) (hj : ¬ Given c .json)
    (files : List (List Char)) (s : List Char) (ws : List (List FileWrite)) :
    x.main c files = .ok (.output s ws) ↔
      ∃ L w p cfg inputs v n strict texts, Asked x c L w p ∧ Settings x c L w cfg ∧
        InputsOf x files inputs ∧ InForce c .iterations "1".toList v ∧ NumberText 255 v n ∧
        (strict = true ↔ Given c .strict) ∧
        LearnAll (fun lines a b k => a.learnFrom x.text cfg p lines strict true x.orders = .ok (b, k)) n
          (fun m s ws => (Given c .multiOutput ∧ LearnFiles x.showF m s ws) ∨
            (¬ Given c .multiOutput ∧ LearnText x.showF m s ws)) L.vm inputs texts ws ∧
        s = texts.flatten := by
  have hp : c.isPresent .json = false := by
    rw [← Bool.not_eq_true, isPresent_iff rfl]; exact hj
  have hmul : c.isPresent .multiOutput = true ↔ Given c .multiOutput := isPresent_flag (by rw [hsub]; rfl)
  have hstr : c.isPresent .strict = true ↔ Given c .strict := isPresent_flag (by rw [hsub]; rfl)
  have hit : ∀ n, c.parsed .iterations (parseUnsigned 255) = .ok n ↔
      ∃ v, InForce c .iterations "1".toList v ∧ NumberText 255 v n := by
    intro n
    rw [parsed_default (by rw [hsub]; rfl) (hc.2 _ (by decide))]
    simp only [parseUnsigned_iff]
  have hrep : (fun m s ws => if c.isPresent .multiOutput = true then LearnFiles x.showF m s ws
      else LearnText x.showF m s ws) = fun m s ws => (Given c .multiOutput ∧ LearnFiles x.showF m s ws) ∨
            (¬ Given c .multiOutput ∧ LearnText x.showF m s ws) := by
    funext m s ws
    by_cases hg : Given c .multiOutput
    · rw [if_pos (hmul.mpr hg)]; simp [hg]
    · rw [if_neg (fun e => hg (hmul.mp e))]; simp [hg]
  rw [main_output hf hpos hc (by rw [hsub]; decide) (by rw [hsub]; decide)]
  have modes : ∀ L w p, x.modes c files L w p = .ok (.output s ws) ↔
      ∃ inputs v n texts, InputsOf x files inputs ∧ InForce c .iterations "1".toList v ∧
        NumberText 255 v n ∧
        LearnAll (fun lines a b k => a.learnFrom x.text (x.config c L w) p lines (c.isPresent .strict) true
            x.orders = .ok (b, k)) n
          (fun m s ws => (Given c .multiOutput ∧ LearnFiles x.showF m s ws) ∨
            (¬ Given c .multiOutput ∧ LearnText x.showF m s ws)) L.vm inputs texts ws ∧
        s = texts.flatten := by
    intro L w p
    unfold ToolExt.modes
    rw [hsub, bind_ok, ← hrep]
    simp only [inputsOf_iff]
    have hb : ∀ t, bracketed (c.isPresent .json) t = t := by
      intro t
      simp [bracketed, hp]
    constructor
    · rintro ⟨inputs, h1, h2⟩
      unfold ToolExt.learn at h2
      obtain ⟨n, h3, h4⟩ := bind_ok.mp h2
      obtain ⟨⟨t, ws'⟩, h5, h6⟩ := bind_ok.mp h4
      have h6 := pure_ok.mp h6
      rw [hb] at h6
      cases h6
      rw [hp] at h5
      obtain ⟨texts, h7, rfl⟩ := learnInputs_iff.mp h5
      obtain ⟨v, h8, h9⟩ := (hit n).mp h3
      exact ⟨inputs, v, n, texts, h1, h8, h9, h7, rfl⟩
    · rintro ⟨inputs, v, n, texts, h1, h8, h9, h7, rfl⟩
      refine ⟨inputs, h1, bind_ok.mpr ⟨n, (hit n).mpr ⟨v, h8, h9⟩, bind_ok.mpr ⟨(texts.flatten, ws), ?_, ?_⟩⟩⟩
      · rw [hp]
        exact (learnInputs_iff (o := x.printer c L p)).mpr ⟨texts, h7, rfl⟩
      · simp only [hb]
        rfl
  simp only [modes, settings_iff]
  constructor
  · rintro ⟨L, w, p, h1, inputs, v, n, texts, h2, h3, h4, h5⟩
    exact ⟨L, w, p, _, inputs, v, n, _, texts, h1, rfl, h2, h3, h4, hstr, h5⟩
  · rintro ⟨L, w, p, _, inputs, v, n, strict, texts, h1, rfl, h2, h3, h4, h5, h6⟩
    have : strict = c.isPresent .strict := by rw [Bool.eq_iff_iff, h5, hstr]
    rw [this] at h6
    exact ⟨L, w, p, h1, inputs, v, n, texts, h2, h3, h4, h6⟩

/-- `learn --strict --iterations 2 --alphabet a --errors e --lexicon l` -/
def exLearn : CommandLine :=
  { exQuery with sub := .learn, given := (.strict, []) :: (.iterations, ['2']) :: exQuery.given }

/-- What was learned from the file is printed again after standard input. -/
example : ∃ L w p cfg inputs v n strict texts, Asked exTool exLearn L w p ∧ Settings exTool exLearn L w cfg ∧
    InputsOf exTool [['q'], ['-']] inputs ∧ InForce exLearn .iterations "1".toList v ∧ NumberText 255 v n ∧
    (strict = true ↔ Given exLearn .strict) ∧
    LearnAll (fun lines a b k => a.learnFrom exTool.text cfg p lines strict true exTool.orders = .ok (b, k)) n
      (fun m s ws => (Given exLearn .multiOutput ∧ LearnFiles exTool.showF m s ws) ∨
        (¬ Given exLearn .multiOutput ∧ LearnText exTool.showF m s ws)) L.vm inputs texts [[], []] ∧
    "b\tbb\t0.5\nb\tbb\t0.5\tba\t0.5\nab\tba\t0.5\n".toList = texts.flatten :=
  (learn_run ex_noSemicolon ex_pos (accepted_of (by decide) (by decide)) rfl
      (not_given (by decide)) [['q'], ['-']] _ [[], []]).mp
      (show exTool.main exLearn [['q'], ['-']] = .ok (.output _ _) by decide +kernel)

/-- With `--multi-output`: new words get the bit of the first lexicon, so they are written to no file. -/
example : exTool.main { exLearn with given := (.multiOutput, []) :: exLearn.given } [['q'], ['-']] =
    .ok (.output "b\nb\nab\n".toList [[], []]) := by
  decide +kernel

end Verif.Props
