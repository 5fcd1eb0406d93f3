import Verif.Lemmas.SearchText
import Verif.Lemmas.Parallel
import Verif.Props.Tokens
import Verif.Props.Rank

/-!
# Properties of the search in running text (C44, C45, C47, C49)
-/
namespace Verif.Props

open Verif.Spec Verif.Model Verif.Lemmas

/-! ## The requirements on the solver can be met -/

theorem walk_of_walks {trs : List Tr} {n q : Nat} {w : List Tr × Nat} (h : w ∈ walks trs n q) :
    Walk trs q w.1 w.2 := by
  induction n generalizing q w with
  | zero =>
    simp only [walks, List.mem_singleton] at h
    subst h; rfl
  | succ n ih =>
    rw [walks, List.mem_cons, List.mem_flatMap] at h
    rcases h with rfl | ⟨t, ht, h⟩
    · rfl
    · rw [List.mem_map] at h
      obtain ⟨⟨ts, q'⟩, h1, rfl⟩ := h
      rw [List.mem_filter, beq_iff_eq] at ht
      exact ⟨ht.1, ht.2, ih h1⟩

theorem walks_of_walk {trs : List Tr} (hf : ∀ t ∈ trs, t.src < t.dst) {n q q' : Nat} {ts : List Tr}
    (h : Walk trs q ts q') (hn : q' ≤ q + n) : (ts, q') ∈ walks trs n q ∧ q ≤ q' := by
  induction ts generalizing n q with
  | nil =>
    cases h
    refine ⟨?_, Nat.le_refl _⟩
    cases n with
    | zero => simp [walks]
    | succ n => simp [walks]
  | cons t ts ih =>
    obtain ⟨h1, h2, h3⟩ := h
    have hlt := hf t h1
    cases n with
    | zero =>
      have := (ih (n := q') h3 (by omega)).2
      omega
    | succ n =>
      obtain ⟨h4, h5⟩ := ih (n := n) h3 (by omega)
      refine ⟨?_, by omega⟩
      rw [walks, List.mem_cons, List.mem_flatMap]
      right
      refine ⟨t, ?_, ?_⟩
      · rw [List.mem_filter, beq_iff_eq]; exact ⟨h1, h2⟩
      · rw [List.mem_map]; exact ⟨(ts, q'), h4, rfl⟩

theorem le_foldr_max {l : List Nat} {a : Nat} (h : a ∈ l) : a ≤ l.foldr max 0 := by
  induction l with
  | nil => cases h
  | cons b l ih =>
    rw [List.mem_cons] at h
    rcases h with rfl | h
    · exact Nat.le_max_left _ _
    · exact Nat.le_trans (ih h) (Nat.le_max_right _ _)

/-- The reference solver meets the requirements. -/
theorem refSolver_ok : SolverOk refSolver where
  sound := by
    intro f n π h
    have h := List.mem_of_mem_take h
    rw [List.mem_insertionSort, List.mem_map] at h
    obtain ⟨w, h1, rfl⟩ := h
    rw [List.mem_filter, List.contains_iff_mem] at h1
    exact ⟨w.1, ⟨w.2, h1.2, walk_of_walks h1.1⟩, rfl⟩
  complete := by
    intro f n ts hn hf ⟨q, hq, hw⟩ h
    obtain ⟨h1, _⟩ := walks_of_walk hf (n := f.finals.foldr max 0) hw
      (by have := le_foldr_max hq; omega)
    unfold refSolver at h
    rw [List.take_eq_nil_iff] at h
    rcases h with h | h
    · omega
    · have h := congrArg List.length h
      rw [List.length_insertionSort, List.length_map, List.length_nil, List.length_eq_zero_iff,
        List.filter_eq_nil_iff] at h
      exact h _ h1 (by simpa using hq)

/-! ## Examples -/

/-- Everything the search in text depends on, for the examples. -/
def exText : TextExt :=
  { exExt with isAlpha := letters, isSpace := (· == ' '), ln32 := (· - 1), ln64 := (· - 1), solve := refSolver, sched := fun n => (List.range n).reverse, sched_perm := fun _ => List.reverse_perm _ }

def exTextConfig : TextConfig := { exConfig with contextRules := [] }

def exTextParams : TextParams :=
  { variant := exParams, maxNgram := 2, maxSeq := 5, singleThread := true, variantmodelWeight := 1, lmWeight := 1, contextrulesWeight := 1, unicodeoffsets := false }

/-! ## C44 -/

/-- **C44**: whatever paths the solver returns (as long as they are paths of the transducer), every
match is faithful to the text and not empty, its variants are those of its text, a selected index
refers to an existing variant unless there are none, and the matches come in text order with at least
one character between them. -/
theorem text_matches {vm : Vm} {x : TextExt} {cfg : TextConfig} {p : TextParams} {text : List Char}
    {ms : List Match} (hsp : x.isAlpha ' ' = false) (hsolve : SolverOk x.solve)
    (hu : p.unicodeoffsets = false) (h : vm.findAllMatches x cfg p text = .ok ms) :
    (∀ m ∈ ms, Faithful text m ∧ m.text ≠ [] ∧
      (∀ v, m.variants = some v → vm.findVariants x.toExt cfg.toConfig p.variant m.text = .ok v) ∧
      (∀ i, m.selected = some i → ∃ vs, m.variants = some vs ∧ (i < vs.length ∨ vs = []))) ∧
    ms.Pairwise (fun a b => a.last < b.first) := by
  by_cases hne : text = []
  · unfold Vm.findAllMatches at h
    rw [if_pos hne] at h
    cases h
    exact ⟨by simp, .nil⟩
  by_cases hi : vm.index.isEmpty = true
  · unfold Vm.findAllMatches at h
    rw [if_neg hne, if_pos hi] at h
    cases h
    exact ⟨by simp, .nil⟩
  · rw [Bool.not_eq_true] at hi
    obtain ⟨segs, hs, _⟩ := findBoundaries_eq x.isAlpha text
    rw [findAllMatches_eq vm x cfg p hne hi hs] at h
    obtain ⟨ms', h1, h⟩ := bind_ok.mp h
    rw [hu] at h
    have := pure_ok.mp h
    subst this
    obtain ⟨hb, hf⟩ := batches_of hs
    rcases hf with hf | ⟨hf, _⟩
    · have := batchesRun_textOk (vm := vm) (cfg := cfg) (p := p) hsp hsolve (batches [] segs) [] []
        ms' hb (fun _ => by rw [hf]; exact segmented_infix (a := []) (b := []) (by simpa using hs) hs.ne)
      simp only [List.nil_append, List.append_nil, hf, hs.text_eq] at this
      obtain ⟨t, _⟩ := this h1
      exact ⟨fun m hm => ⟨t.faithful m hm, t.ne m hm, t.variants m hm, t.selected m hm⟩, t.ordered⟩
    · rw [hf] at h1
      simp only [Vm.batchesRun, Except.ok.injEq] at h1
      subst h1
      exact ⟨by simp, .nil⟩

/-- A text of three batches, with a word-internal separator inside a match of two words. -/
example : SolverOk exText.solve ∧ exText.isAlpha ' ' = false ∧ exTextParams.unicodeoffsets = false ∧
    (plain.findAllMatches exText exTextConfig exTextParams "ab ba, a-x b".toList).toOption.map
      (·.map fun m => ((m.text, m.first, m.last), m.n, m.selected)) =
      some [(("ab".toList, 0, 2), 1, some 0), (("ba".toList, 3, 5), 1, some 0),
        (("a-x".toList, 7, 10), 2, some 0), (("b".toList, 11, 12), 1, some 0)] :=
  ⟨refSolver_ok, by decide +kernel, rfl, by decide +kernel⟩

theorem prefix_length {a b c d text : List Char} (h1 : text = a ++ c) (h2 : text = b ++ d)
    (h : byteLen a < byteLen b) : a.length < b.length := by
  rcases List.append_eq_append_iff.mp (h1.symm.trans h2) with ⟨r, e1, _⟩ | ⟨r, e1, _⟩
  · rw [e1, List.length_append]
    have : r ≠ [] := by
      rintro rfl
      rw [e1, List.append_nil] at h
      omega
    have := List.length_pos_iff.mpr this
    omega
  · rw [e1, byteLen_append] at h
    omega

/-- **C44** with offsets in characters: the same matches, with the range of characters at the offsets
being the text of the match, again in order and separated. -/
theorem text_matches_unicode {vm : Vm} {x : TextExt} {cfg : TextConfig} {p : TextParams}
    {text : List Char} {ms : List Match} (hsp : x.isAlpha ' ' = false) (hsolve : SolverOk x.solve)
    (hu : p.unicodeoffsets = true) (h : vm.findAllMatches x cfg p text = .ok ms) :
    ∃ ms', vm.findAllMatches x cfg { p with unicodeoffsets := false } text = .ok ms' ∧
      List.Forall₂ (fun m' m => m = { m' with first := m.first, last := m.last } ∧
        (text.take m.last).drop m.first = m.text) ms' ms ∧
      ms.Pairwise (fun a b => a.last < b.first) := by
  have key : ∃ ms', vm.findAllMatches x cfg { p with unicodeoffsets := false } text = .ok ms' ∧
      remapOffsets text ms' = .ok ms := by
    by_cases hne : text = []
    · unfold Vm.findAllMatches at h ⊢
      rw [if_pos hne] at h ⊢
      cases h
      exact ⟨[], rfl, rfl⟩
    by_cases hi : vm.index.isEmpty = true
    · unfold Vm.findAllMatches at h ⊢
      rw [if_neg hne, if_pos hi] at h ⊢
      cases h
      exact ⟨[], rfl, rfl⟩
    · rw [Bool.not_eq_true] at hi
      obtain ⟨segs, hs, _⟩ := findBoundaries_eq x.isAlpha text
      rw [findAllMatches_eq vm x cfg p hne hi hs] at h
      obtain ⟨ms', h1, h⟩ := bind_ok.mp h
      rw [hu] at h
      refine ⟨ms', ?_, h⟩
      rw [findAllMatches_eq vm x cfg _ hne hi hs]
      have := (batchesRun_options (vm := vm) (x := x) (cfg := cfg) (p := p) (text := text) x.sched
        x.sched_perm p.singleThread false (batches [] segs) 0 ms').mpr h1
      rw [show Vm.batchesRun vm x cfg { p with unicodeoffsets := false } text 0 (batches [] segs) =
        .ok ms' from this]
      rfl
  obtain ⟨ms', h1, h2⟩ := key
  obtain ⟨t1, t2⟩ := text_matches hsp hsolve rfl h1
  obtain ⟨ms'', h3, h4⟩ := unicode_offsets text ms' (fun m hm => (t1 m hm).1)
  rw [h2] at h3
  cases h3
  refine ⟨ms', h1, ?_, ?_⟩
  · refine h4.imp ?_
    rintro m' m ⟨e1, a, c, e2, _, _, e5, e6, e7⟩
    exact ⟨e1, by rw [e7, e1]⟩
  · clear h1 h2 t1 h
    induction h4 with
    | nil => exact .nil
    | cons hh ht ih =>
      rw [List.pairwise_cons] at t2 ⊢
      refine ⟨?_, ih t2.2⟩
      intro b hb
      obtain ⟨b', hb', _, a, c, e2, e3, e4, e5, e6, _⟩ := mem_of_forall₂_right ht hb
      obtain ⟨_, a1, c1, f2, f3, f4, f5, f6, _⟩ := hh
      rw [e5, f6]
      have := t2.1 b' hb'
      refine prefix_length (text := text) (c := c1) (d := b'.text ++ c) f2
        (by rw [e2, List.append_assoc]) ?_
      rw [f4, e3]; exact this

/-- With characters of two and three bytes. -/
example : (plain.findAllMatches exText exTextConfig { exTextParams with unicodeoffsets := true }
      "é ab €. b".toList).toOption.map (·.map fun m => (m.text, m.first, m.last)) =
      some [("é ab".toList, 0, 4), ("b".toList, 8, 9)] ∧
    (plain.findAllMatches exText exTextConfig exTextParams
      "é ab €. b".toList).toOption.map (·.map fun m => (m.text, m.first, m.last)) =
      some [("é ab".toList, 0, 5), ("b".toList, 11, 12)] := by decide +kernel

/-! ## C45 -/

/-- **C45**: with single words only, no language model and no context rules, the search succeeds iff
finding the variants of each word does, and then returns each word of the text (`unigrams_words`) once,
in order, with its variants and the first one selected. -/
theorem unigram_search {vm : Vm} {x : TextExt} {cfg : TextConfig} {p : TextParams}
    {text : List Char} {segs : List Seg} (hsp : x.isAlpha ' ' = false) (hn : p.maxNgram = 1)
    (hlm : vm.haveLm = false) (hr : cfg.contextRules = []) (hu : p.unicodeoffsets = false)
    (hne : text ≠ []) (hi : vm.index.isEmpty = false) (hs : Segmented x.isAlpha text segs)
    (ms : List Match) :
    vm.findAllMatches x cfg p text = .ok ms ↔
      List.Forall₂ (fun word m => ∃ v,
        vm.findVariants x.toExt cfg.toConfig p.variant word.text = .ok v ∧
        m = { word with variants := some v, selected := some 0 }) (runsFrom 1 0 segs) ms := by
  have hbatch : ∀ (pre post : List Char) (g : List Seg) (out : List Match), IsBatch x.isAlpha g →
      (vm.batchMatches x cfg p (pre ++ flat g ++ post) (boundariesFrom (byteLen pre) g)
        (byteLen pre) (byteLen pre + byteLen (stretch g)) = .ok out ↔
      List.Forall₂ (fun word m => ∃ v,
        vm.findVariants x.toExt cfg.toConfig p.variant word.text = .ok v ∧
        m = { word with variants := some v, selected := some 0 }) (runsFrom 1 (byteLen pre) g) out) := by
    intro pre post g out hg
    unfold Vm.batchMatches
    rw [hn, bind_ok]
    simp only [show ¬ (1 > 1 ∨ vm.haveLm = true ∨ (!cfg.contextRules.isEmpty) = true) by simp [hlm, hr],
      if_false]
    simp only [gather_unigrams hsp hg, pure_ok]
    unfold Words
    constructor
    · rintro ⟨b, h1, rfl⟩
      rw [List.forall₂_map_right_iff]
      refine h1.imp ?_
      rintro w m ⟨v, h2, rfl⟩
      exact ⟨v, h2, rfl⟩
    · intro h1
      refine ⟨out.map fun m => { m with selected := none }, ?_, ?_⟩
      · rw [List.forall₂_map_right_iff]
        have h2 := h1
        rw [List.forall₂_iff_get] at h1 ⊢
        refine ⟨h1.1, ?_⟩
        intro i h3 h4
        obtain ⟨v, h5, h6⟩ := h1.2 i h3 h4
        refine ⟨v, h5, ?_⟩
        rw [h6]
        obtain ⟨a, r, b, _, _, _, e⟩ := mem_runs (List.get_mem _ ⟨i, h3⟩)
        rw [e]; rfl
      · rw [List.map_map]
        conv_rhs => rw [← List.map_id out]
        apply List.map_congr_left
        intro m hm
        obtain ⟨w, _, v, _, rfl⟩ := mem_of_forall₂_right h1 hm
        rfl
  have hrun : ∀ (gs : List (List Seg)) (pre post : List Char) (out : List Match),
      (∀ g ∈ gs, IsBatch x.isAlpha g) →
      (Vm.batchesRun vm x cfg p (pre ++ flat gs.flatten ++ post) (byteLen pre) gs = .ok out ↔
      List.Forall₂ (fun word m => ∃ v,
        vm.findVariants x.toExt cfg.toConfig p.variant word.text = .ok v ∧
        m = { word with variants := some v, selected := some 0 })
          (runsFrom 1 (byteLen pre) gs.flatten) out) := by
    intro gs
    induction gs with
    | nil =>
      intro pre post out _
      simp only [Vm.batchesRun, List.flatten_nil, runsFrom, Except.ok.injEq,
        List.forall₂_nil_left_iff]
      exact eq_comm
    | cons g gs ih =>
      intro pre post out hg
      rw [List.flatten_cons, runs1_append, flat_append]
      rw [Vm.batchesRun, bind_ok]
      have e1 : pre ++ (flat g ++ flat gs.flatten) ++ post =
          pre ++ flat g ++ (flat gs.flatten ++ post) := by simp
      have e2 : pre ++ (flat g ++ flat gs.flatten) ++ post =
          (pre ++ flat g) ++ flat gs.flatten ++ post := by simp
      constructor
      · rintro ⟨a, h1, h⟩
        obtain ⟨b, h2, h⟩ := bind_ok.mp h
        have := pure_ok.mp h
        subst this
        rw [e1, hbatch _ _ _ _ (hg g (by simp))] at h1
        rw [e2, ← byteLen_append, ih _ _ _ (fun g' h' => hg g' (by simp [h']))] at h2
        rw [← byteLen_append]
        exact List.rel_append h1 h2
      · intro h
        obtain ⟨a, b, rfl, h1, h2⟩ := forall₂_append_left h
        refine ⟨a, ?_, bind_ok.mpr ⟨b, ?_, rfl⟩⟩
        · rw [e1, hbatch _ _ _ _ (hg g (by simp))]; exact h1
        · rw [e2, ← byteLen_append, ih _ _ _ (fun g' h' => hg g' (by simp [h'])), byteLen_append]
          exact h2
  rw [findAllMatches_eq vm x cfg p hne hi hs, hu, bind_ok]
  simp only [Bool.false_eq_true, if_false, pure_ok, exists_eq_right]
  obtain ⟨hb, hf⟩ := batches_of hs
  rcases hf with hf | ⟨hf, s, e⟩
  · have := hrun (batches [] segs) [] [] ms hb
    simp only [List.nil_append, List.append_nil, hf, hs.text_eq] at this
    exact this
  · rw [hf, e]
    simp only [Vm.batchesRun, Except.ok.injEq, runsFrom, List.take_succ_cons, List.take_zero, stretch,
      ne_eq, not_true_eq_false, and_false, if_false, List.append_nil, List.forall₂_nil_left_iff]
    exact eq_comm

/-- Words with several variants, one variant and none. -/
example : plain.haveLm = false ∧ exTextConfig.contextRules = [] ∧ plain.index.isEmpty = false ∧
    (plain.findAllMatches exText exTextConfig { exTextParams with maxNgram := 1 }
      "ab x, ba".toList).toOption.map
        (·.map fun m => (m.text, m.selected, m.variants.map List.length)) =
      some [("ab".toList, some 0, some 2), ("x".toList, some 0, some 0),
        ("ba".toList, some 0, some 1)] := by decide +kernel

/-! ## C47 -/

/-- **C47**: for every schedule of the workers the search with several threads has the result of the
search with a single thread, and it panics iff that one does. -/
theorem parallel_search {vm : Vm} {x : TextExt} {cfg : TextConfig} {p : TextParams}
    {text : List Char} (sched : Nat → List Nat) (h : ∀ n, (sched n).Perm (List.range n)) :
    (vm.findAllMatches { x with sched := sched, sched_perm := h } cfg { p with singleThread := false }
      text).toOption = (vm.findAllMatches x cfg { p with singleThread := true } text).toOption := by
  have key : ∀ (sched : Nat → List Nat) (h : ∀ n, (sched n).Perm (List.range n)) (a : Bool) ms,
      vm.findAllMatches (withSched x sched h) cfg (withOptions p a p.unicodeoffsets) text = .ok ms ↔
        vm.findAllMatches x cfg p text = .ok ms := by
    intro sched h a ms
    by_cases hne : text = []
    · unfold Vm.findAllMatches; rw [if_pos hne, if_pos hne]
    by_cases hi : vm.index.isEmpty = true
    · unfold Vm.findAllMatches; rw [if_neg hne, if_neg hne, if_pos hi, if_pos hi]
    · rw [Bool.not_eq_true] at hi
      obtain ⟨segs, hs, _⟩ := findBoundaries_eq x.isAlpha text
      rw [findAllMatches_eq vm x cfg p hne hi hs,
        findAllMatches_eq vm (withSched x sched h) cfg _ hne hi (segs := segs) hs, bind_ok, bind_ok]
      simp only [batchesRun_options]
      rfl
  have h1 := key sched h false
  have h2 := key x.sched x.sched_perm true
  have h3 : ∀ ms, vm.findAllMatches { x with sched := sched, sched_perm := h } cfg
      { p with singleThread := false } text = .ok ms ↔
      vm.findAllMatches x cfg { p with singleThread := true } text = .ok ms :=
    fun ms => (h1 ms).trans (h2 ms).symm
  generalize vm.findAllMatches { x with sched := sched, sched_perm := h } cfg
      { p with singleThread := false } text = r1 at h3
  generalize vm.findAllMatches x cfg { p with singleThread := true } text = r2 at h3
  cases r1 with
  | ok ms => rw [(h3 ms).mp rfl]
  | error e =>
    cases r2 with
    | ok ms => have := (h3 ms).mpr rfl; cases this
    | error e' => rfl

/-- Three segments at a time, from the last to the first. -/
example : exText.sched 3 = [2, 1, 0] ∧
    (plain.findAllMatches exText exTextConfig { exTextParams with singleThread := false }
      "ab a-b".toList).toOption.map (·.map fun m => (m.text, m.first, m.last)) =
      some [("ab".toList, 0, 2), ("a-b".toList, 3, 6)] := by decide +kernel

/-- **C47** for learning: whatever the schedules of the workers (those on the inputs, and in turn those
searching in one input), the model and the count are those of learning with a single thread. -/
theorem parallel_learning {vm : Vm} {x : TextExt} {cfg : TextConfig} {p : TextParams}
    (inputs : List (List Char)) (strict autoBuild : Bool) (o : Orders)
    (sched : Nat → List Nat) (h : ∀ n, (sched n).Perm (List.range n)) :
    (vm.learnFrom { x with sched := sched, sched_perm := h } cfg { p with singleThread := false }
      inputs strict autoBuild o).toOption =
    (vm.learnFrom x cfg { p with singleThread := true } inputs strict autoBuild o).toOption := by
  have toOption_eq : ∀ {α : Type} {r1 r2 : Res α}, (∀ a, r1 = .ok a ↔ r2 = .ok a) →
      r1.toOption = r2.toOption := by
    intro α r1 r2 h
    cases r1 with
    | ok a => rw [(h a).mp rfl]
    | error e =>
      cases r2 with
      | ok a => have := (h a).mpr rfl; cases this
      | error e' => rfl
  have ok_of_toOption : ∀ {α : Type} {r1 r2 : Res α}, r1.toOption = r2.toOption → ∀ a,
      r1 = .ok a ↔ r2 = .ok a := by
    intro α r1 r2 h a
    cases r1 <;> cases r2 <;> simp_all [Except.toOption]
  have hfind : ∀ input fs,
      vm.findForLearning { x with sched := sched, sched_perm := h } cfg
        { p with singleThread := false } strict input = .ok fs ↔
      vm.findForLearning x cfg { p with singleThread := true } strict input = .ok fs := by
    intro input fs
    unfold Vm.findForLearning
    cases strict with
    | true => exact Iff.rfl
    | false =>
      simp only [Bool.false_eq_true, if_false]
      rw [bind_ok, bind_ok]
      simp only [ok_of_toOption (parallel_search (vm := vm) (x := x) (cfg := cfg) (p := p)
        (text := input) sched h)]
  apply toOption_eq
  intro r
  unfold Vm.learnFrom
  simp only [Bool.false_eq_true, if_false, if_true]
  rw [bind_ok, bind_ok]
  simp only [collectPar_perm (h _), collectSeq_congr (fun a _ b => hfind a b)]

/-- Two texts learned from, the second one first. -/
example : exText.sched 2 = [1, 0] ∧
    ((plain.learnFrom exText exTextConfig { exTextParams with singleThread := false }
      ["ab aa".toList, "bb".toList] false false exOrders).toOption.map Prod.snd) = some 2 := by
  decide +kernel

end Verif.Props
