import Verif.Spec.Long
import Verif.Props.SimilarRuns

/-!
# For which inputs a search returns, and for which it panics (C130)
-/
namespace Verif.Props

open Verif.Spec Verif.Model Verif.Lemmas

/-! ## Where the counters of type `u16` overflow -/

theorem upperBoundLoop_overflow (l : List Nat) (d m c : Nat) (hc : 65536 ≤ c + l.length)
    (hc' : c < 65536) : upperBoundLoop (iterChain l d) m c = .error .overflow := by
  induction l generalizing d m c with
  | nil => simp only [List.length_nil] at hc; omega
  | cons x l ih =>
    simp only [List.length_cons] at hc
    simp only [iterChain, upperBoundLoop]
    split
    · rfl
    · exact ih _ _ _ (by omega) (by omega)

theorem schedule_overflow {value cc : Nat} : ∀ (n i : Nat) (L : HMap Nat (List Nat)), 0 < n →
    65536 < cc + i + n → schedule value cc i n L = .error .overflow := by
  intro n
  induction n with
  | zero => intro i L h0 _; omega
  | succ n ih =>
    intro i L _ hl
    simp only [schedule]
    split
    · rfl
    · exact ih (i + 1) _ (by omega) (by omega)

/-- The exhaustive search panics if query and distance together have 65536 symbols or more. -/
theorem exhaustive_overflow {alphabet : Alphabet} {m : Vm} (hb : Built alphabet m)
    (hlen : alphabet.length ≤ 166) (lo : LookupOrder) {a : List Nat}
    (ha : Within (alphabet.length + 1) a) {k : Nat} (hal : 65536 ≤ a.length + k) (near : List Nat) :
    m.exhaustiveSearch lo (bagValue a) k near = .error .overflow := by
  have hasz : m.alphabetSize = .ok (alphabet.length + 1) := by
    simp only [Vm.alphabetSize, hb.alpha]
    rw [Nat.mod_eq_of_lt (by omega), if_neg (by omega)]
  simp only [Vm.exhaustiveSearch, hasz, bind, Except.bind]
  by_cases hl : a.length < 65536
  · have hupper : a.foldl max 0 ≤ 166 := foldl_max_le a 0 166 (by omega) (fun x hx => by
      have := ha x hx; omega)
    rw [alphabetUpperBound_bag (by omega) ha hl]
    simp only
    rw [if_neg (by omega), schedule_overflow k 1 [] (by omega) (by omega)]
  · have hp := sortDesc_perm a
    rw [alphabetUpperBound, iterAll_bag (by omega) ha]
    simp only
    rw [upperBoundLoop_overflow _ _ _ _ (by rw [hp.length_eq]; omega) (by omega)]

theorem index_nonempty {alphabet : Alphabet} {m : Vm} (hb : Built alphabet m) {v : VocabValue}
    (hv : v ∈ m.decoder) (hi : v.vocabtype.check .INDEXED = true) : m.index.isEmpty = false := by
  rw [check_indexed'] at hi
  obtain ⟨i, hi'⟩ := List.getElem?_of_mem hv
  obtain ⟨k', node, _, hnode⟩ := hb.complete i v hi' hi
  cases h : m.index with
  | nil => rw [h] at hnode; cases hnode
  | cons => rfl

/-! ## The exact condition -/

/-- **C130**: on a model that was built last, whose references are entries and whose entries have fewer
than 65536 characters, with weights of non-zero sum, a search returns normally exactly if the input can be
searched for; otherwise it panics. -/
theorem find_variants_defined (alphabet : Alphabet) (hne : NoEmpty alphabet)
    (hlen : alphabet.length ≤ 166) (ops : List Op) (o : Orders) (m : Vm)
    (h : (Vm.new alphabet).run (ops ++ [.build o]) = .ok m)
    (hrefs : ∀ y ∈ (ops ++ [Op.build o]).flatMap opLinks, y.1 < m.decoder.length)
    (hshort : ∀ v ∈ m.decoder, v.text.length < 65536) (x : Ext) (cfg : Config) (p : Params)
    (hfit : Fits p.maxAnagramDistance) (hw : cfg.weights.sum x.f64 ≠ 0) (input : List Char) :
    (∃ res, m.findVariants x cfg p input = .ok res) ↔ Searchable x.f32 alphabet p
      (fun t => ∃ v ∈ m.decoder, v.text = t ∧ v.vocabtype.check .INDEXED = true) input := by
  have hb := built_of_run h
  by_cases hno : ∀ v ∈ m.decoder, v.vocabtype.check .INDEXED = false
  · have hempty : m.index.isEmpty = true := by
      cases hm : m.index with
      | nil => rfl
      | cons y rest =>
        exfalso
        obtain ⟨node, hn⟩ : ∃ node, m.index.get? y.1 = some node := by
          rw [hm]; exact ⟨y.2, by simp [HMap.get?]⟩
        obtain ⟨h1, _, h2, _⟩ := hb.node _ node hn
        obtain ⟨id, hid⟩ := List.exists_mem_of_ne_nil _ h1
        obtain ⟨v, hv, hi, _⟩ := (h2 id).mp hid
        have := hno v (List.mem_of_getElem? hv)
        rw [check_indexed', hi] at this
        cases this
    refine ⟨fun _ => .inl fun t ⟨v, hv, _, hi⟩ => ?_, fun _ => ⟨[], ?_⟩⟩
    · rw [hno v hv] at hi; cases hi
    · unfold Vm.findVariants
      rw [if_pos hempty]
  push Not at hno
  obtain ⟨v0, hv0, hi0⟩ := hno
  rw [Bool.ne_false_iff] at hi0
  have hidx := index_nonempty hb hv0 hi0
  by_cases hin : input = []
  · subst hin
    obtain ⟨e, he⟩ := empty_input_panics m x cfg p hidx
    rw [he]
    constructor
    · rintro ⟨_, h⟩; cases h
    · rintro (h | ⟨h, _⟩)
      · exact absurd ⟨v0, hv0, rfl, hi0⟩ (h _)
      · exact absurd rfl h
  obtain ⟨qs, hqs⟩ := encodes_exists hne (alphabet.length + 1) input
  have ha := (encodes_change hqs alphabet.length).resolve_right (by omega)
  generalize hav : (qs.map fun c => if c < alphabet.length then c else alphabet.length) = a at ha
  have hal : a.length = qs.length := by rw [← hav, List.length_map]
  have hhash := anahash_eq (by omega : alphabet.length ≤ 167) ha
  have hperm : ∀ v c, Encodes alphabet alphabet.length v c →
      (anahash alphabet v = anahash alphabet input ↔ a.Perm c) := fun v c hc =>
    (anahash_eq_iff_anagram alphabet (by omega) v input c a hc ha).trans ⟨.symm, .symm⟩
  have hfits : FitsCounter x.f32 alphabet p input ↔
      qs.length + effectiveDistance x.f32 qs.length p.maxAnagramDistance < 65536 := by
    constructor
    · rintro ⟨qs', n, h1, h2, h3⟩
      rw [encodes_unique h1 hqs] at h2 h3
      rwa [← (allowed_iff hfit).mp h2]
    · intro h
      exact ⟨qs, _, hqs, (allowed_iff hfit).mpr rfl, h⟩
  have hana : (∃ t, (∃ v ∈ m.decoder, v.text = t ∧ v.vocabtype.check .INDEXED = true) ∧
      Anagrams alphabet input t) ↔ ∃ v ∈ m.decoder, v.vocabtype.check .INDEXED = true ∧
        anahash alphabet v.text = anahash alphabet input := by
    constructor
    · rintro ⟨t, ⟨v, hv, rfl, hi⟩, a', c, ha', hc, hp⟩
      rw [encodes_unique ha' ha] at hp
      exact ⟨v, hv, hi, (hperm _ c hc).mpr hp⟩
    · rintro ⟨v, hv, hi, he⟩
      obtain ⟨c, hc⟩ := encodes_exists hne alphabet.length v.text
      exact ⟨_, ⟨v, hv, rfl, hi⟩, a, c, ha, hc, (hperm _ c hc).mp he⟩
  unfold Searchable
  rw [hfits, hana]
  constructor
  · intro hok
    by_contra hcon
    simp only [not_or, not_and] at hcon
    obtain ⟨h2, h3⟩ := hcon.2 hin
    have hnear : m.findNearestAnahashes x.lookups (bagValue a)
        (effectiveDistance x.f32 qs.length p.maxAnagramDistance) p.stopCriterion = .error .overflow := by
      have hex : ∀ near, m.exhaustiveSearch x.lookups (bagValue a)
          (effectiveDistance x.f32 qs.length p.maxAnagramDistance) near = .error .overflow :=
        exhaustive_overflow hb hlen x.lookups (encodes_within ha) (by omega)
      unfold Vm.findNearestAnahashes
      split
      · next node hn =>
        split
        · next hstop =>
          exfalso
          simp only [stopsEarly, Bool.and_eq_true, decide_eq_true_eq] at hstop
          obtain ⟨g1, _, g2, _⟩ := hb.node _ node hn
          obtain ⟨id, hid⟩ := List.exists_mem_of_ne_nil _ g1
          obtain ⟨v', hv', hi', hva⟩ := (g2 id).mp hid
          exact h3 hstop.1 ⟨v', List.mem_of_getElem? hv', by rw [check_indexed']; exact hi',
            hva.trans hhash.symm⟩
        · exact hex _
      · exact hex _
    obtain ⟨res, hres⟩ := hok
    unfold Vm.findVariants at hres
    rw [hidx, if_neg (by simp)] at hres
    simp only [Vm.findCandidates, hb.alpha, normalize_eq (by omega : alphabet.length ≤ 254) hqs,
      hhash, hnear, bind, Except.bind] at hres
    cases hres
  · intro hroom
    have hroom := (hroom.resolve_left fun h => h _ ⟨v0, hv0, rfl, hi0⟩).2
    have hq : qs.length < 65536 := by
      rcases hroom with hr | ⟨_, v, hv, _, he⟩
      · omega
      · obtain ⟨c, hc⟩ := encodes_exists hne alphabet.length v.text
        have := ((hperm _ c hc).mp he).length_eq
        have := encodes_length hc
        have := hshort v hv
        omega
    obtain ⟨l, h1, _⟩ := candidates_defined alphabet hne hlen ops o m h hshort x cfg.weights p input
      hin qs hqs hq hroom
    unfold Vm.findVariants
    rw [hidx, if_neg (by simp), h1]
    refine scoreAndRank_total hw ?_ (expandVariants_total ?_ (refsExist_of_run h hrefs))
    · intro e
      have := List.length_eq_zero_iff.mp e
      subst this
      exact hin (encodes_nil_text hqs)
    · intro y hy
      obtain ⟨c, _, item, hitem, e, _⟩ := mem_scoredList hy
      rw [e]
      exact (List.getElem?_eq_some_iff.mp hitem).1

/-- The encoding of a row of the first letter. -/
theorem ex_encodes_row (rest : Alphabet) (unk n : Nat) :
    Encodes ([['a'], ['A']] :: rest) unk (List.replicate n 'a') (List.replicate n 0) := by
  induction n with
  | zero => exact .nil
  | succ n ih =>
    exact .hit (e := ['a']) ⟨⟨[], [['A']], rfl, by simp⟩, ⟨_, rfl⟩, by simp⟩ (by simp) ih

/-- Such a row fits if its length and the allowed distance do. -/
theorem ex_fits {f32 : Rounding} (rest : Alphabet) {p : Params} {n k : Nat}
    (hp : Allowed f32 n p.maxAnagramDistance k) :
    FitsCounter f32 ([['a'], ['A']] :: rest) p (List.replicate n 'a') ↔ n + k < 65536 := by
  constructor
  · rintro ⟨qs, k', h1, h2, h3⟩
    rw [encodes_unique h1 (ex_encodes_row rest _ n), List.length_replicate] at h2 h3
    cases hm : p.maxAnagramDistance <;> rw [hm] at hp h2 <;> rw [hp.unique h2] <;> exact h3
  · intro h
    exact ⟨_, k, ex_encodes_row rest _ n, by rwa [List.length_replicate], by rwa [List.length_replicate]⟩

theorem ex_allowed (n : Nat) (hn : 3 ≤ n) : Allowed exExt.f32 n exParams.maxAnagramDistance 3 := by
  refine ⟨.inr ⟨le_rfl, ?_⟩, fun k hk => ?_⟩
  · show (3 : Rat) ≤ (n : Rat) * 1
    rw [mul_one]; exact_mod_cast hn
  · rcases hk with rfl | ⟨hk, _⟩
    · omega
    · exact hk

/-- At distance 3, a row of 65532 letters can be searched for, and one of 65533 cannot. -/
example : (∃ res, plain.findVariants exExt exConfig exParams (List.replicate 65532 'a') = .ok res) ∧
    ¬ ∃ res, plain.findVariants exExt exConfig exParams (List.replicate 65533 'a') = .ok res := by
  have key := fun l => find_variants_defined exAlphabet (by unfold NoEmpty; decide) (by decide)
    (plainOps.take 4) exOrders plain plain_run (by decide +kernel) (by decide +kernel) exExt exConfig exParams
    (show 3 ≤ 255 by decide) (by decide +kernel) l
  have hne : List.replicate 65532 'a' ≠ [] := fun h => by
    have := congrArg List.length h
    rw [List.length_replicate] at this
    cases this
  refine ⟨(key _).mpr (.inr ⟨hne, .inl ((ex_fits _ (ex_allowed _ (by omega))).mpr (by omega))⟩), ?_⟩
  rw [key]
  rintro (h | ⟨_, h | ⟨h, _⟩⟩)
  · exact h ['a', 'b'] (by decide +kernel)
  · have := (ex_fits _ (ex_allowed _ (by omega))).mp h
    omega
  · cases h

/-- Texts of at most 65280 characters always fit. -/
theorem short_fits {f32 : Rounding} {alphabet : Alphabet} (hne : NoEmpty alphabet) {p : Params}
    (hfit : Fits p.maxAnagramDistance) {t : List Char} (ht : t.length ≤ 65280) :
    FitsCounter f32 alphabet p t := by
  obtain ⟨qs, hqs⟩ := encodes_exists hne (alphabet.length + 1) t
  have h1 := encodes_length hqs
  have h2 := effectiveDistance_le f32 qs.length p.maxAnagramDistance
  exact ⟨qs, _, hqs, (allowed_iff hfit).mpr rfl, by omega⟩

/-! ## Runs -/

/-- The words that are looked up after loading are those the sources say. -/
theorem sought_iff {x : LoadExt} {args : LoadArgs} {o : Orders} {L : Loaded}
    (h : x.load args o = .ok L) (hcount : (sourcesOf args).length ≤ 256)
    {as : List (List (List Char × Option Nat × VocabParams))} (has : AddsAll x 0 (sourcesOf args) as)
    (t : List Char) :
    (∃ v ∈ L.vm.decoder, v.text = t ∧ v.vocabtype.check .INDEXED = true) ↔ Sought as t := by
  have hinv : Inv L.vm := by
    obtain ⟨_, ops, _, _, _, _, hrun, _⟩ := loaded_history h
    exact (inv_run (inv_new _) hrun).1
  constructor
  · rintro ⟨v, hv, rfl, hi⟩
    obtain ⟨i, hi'⟩ := List.getElem?_of_mem hv
    rw [check_indexed'] at hi
    have hget : L.vm.encoder.get? v.text = some i := (hinv.bij _ _).mpr (by rw [textAt, hi']; rfl)
    have hr : ¬ Reserved v.text := by
      have h3 : 3 ≤ i := by
        by_contra hcon
        have := hinv.notIndexed i (by omega) v hi'
        rw [hi] at this; cases this
      rintro (e | e | e)
      · have := (hinv.bij _ _).mpr hinv.bos
        rw [show bosText = v.text from e.symm, hget] at this
        cases this; omega
      · have := (hinv.bij _ _).mpr hinv.eos
        rw [show eosText = v.text from e.symm, hget] at this
        cases this; omega
      · have := (hinv.bij _ _).mpr hinv.unk
        rw [show unkText = v.text from e.symm, hget] at this
        cases this; omega
    obtain ⟨e1, e2⟩ := loaded_entry h hcount has v.text hr
    cases hadds : addsOf v.text as.flatten with
    | nil => rw [e1 hadds] at hget; cases hget
    | cons b bs =>
      refine ⟨hr, b, bs, hadds, ?_⟩
      obtain ⟨id, v', ⟨g1, g2, _⟩, _, _, _, g3, _⟩ := e2 b bs hadds
      rw [hget] at g1
      cases g1
      rw [hi'] at g2
      cases g2
      rw [check_indexed', ← g3]; exact hi
  · rintro ⟨hr, b, bs, hb, hi⟩
    obtain ⟨id, v, hE, _, _, _, g, _⟩ := (loaded_entry h hcount has t hr).2 b bs hb
    exact ⟨v, List.mem_of_getElem? hE.2.1, hE.2.2, by rw [check_indexed', g, ← check_indexed']; exact hi⟩

/-- What is loaded from usable files, and for which texts variants are found in it. -/
theorem usable_searchable {x : ToolExt} (hmarks : MarksOk x.load.isSpace) (hb : x.load.isSpace '\\' = false)
    {c : CommandLine} (hc : Accepted c)
    {as : List (List (List Char × Option Nat × VocabParams))} {w : Weights} {p : TextParams}
    (hfiles : UsableFiles x c as) (hnum : UsableNumbers x c w p)
    {afile : List Char} {alines : List (Option (List Char))} {alphabet : Alphabet}
    (ha : (.alphabet, afile) ∈ c.given) (hal : x.load.file afile = some alines)
    (hae : List.Forall₂ (AlphabetLine x.load.isSpace) (nonEmpty alines) alphabet) :
    ∃ L, Asked x c L w p ∧ L.vm.lexicons.length ≤ 32 ∧ (∀ r ∈ L.book.rules, RuleOk r) ∧ BookOk L.book ∧
      Inv L.vm ∧ (∀ v ∈ L.vm.decoder, Reserved v.text ∨ ∃ a ∈ as.flatten, a.1 = v.text) ∧
      ∀ l, (∃ vs, L.vm.findVariants x.text.toExt (x.config c L w).toConfig p.variant l = .ok vs) ↔
        Searchable x.text.f32 alphabet p.variant (Sought as) l := by
  obtain ⟨args, L, hn, hld, hL, hLF, hlen, hlex, hrules, hbook, hshort⟩ := usable_loads hmarks hfiles
  have hs := hld.sources
  obtain ⟨lines, ops, hl1, hl2, _, hne, hrun, _, hrefs, _⟩ := loaded_history hL
  have halpha : L.vm.alphabet = alphabet := by
    obtain ⟨lines, _, _, hl1, hl2, _⟩ := loaded_history hL
    rw [← hc.2 .alphabet (by decide) _ _ ha hn.alphabet, hal] at hl1
    cases hl1
    obtain ⟨es, _, e2, e3⟩ := read_alphabet_entries hb [] alines
    rw [hl2, e2, List.nil_append, e3 alphabet hae]
  refine ⟨L, ⟨hLF, hnum.weights, hnum.params, hnum.cutoff, hnum.debug⟩, hlex, hrules, hbook,
    (inv_run (inv_new _) hrun).1, fun v hv => loaded_text hL (by omega) hld.words hv, fun l => ?_⟩
  rw [find_variants_defined _ hne hlen ops x.orders _ hrun hrefs hshort x.text.toExt
    (x.config c L w).toConfig p.variant (fits_of_numbers hnum).1 hnum.nonzero l, halpha]
  have : (fun t => ∃ v ∈ L.vm.decoder, v.text = t ∧ v.vocabtype.check .INDEXED = true) = Sought as :=
    funext fun t => propext (sought_iff hL (by omega) hld.words t)
  rw [this]

/-- **C130**: a query over files that can be loaded, with numbers that can be read, succeeds exactly if all
lines can be searched for, and (unless there is one thread) can be read. -/
theorem query_succeeds_iff {x : ToolExt} (hf : ∀ s, ';' ∈ s → x.parseF32 s = none) (hpos : StrictMono x.pos)
    (hmarks : MarksOk x.load.isSpace) (hb : x.load.isSpace '\\' = false) {c : CommandLine} (hc : Accepted c)
    (hsub : c.sub = .query)
    {as : List (List (List Char × Option Nat × VocabParams))} {w : Weights} {p : TextParams}
    (hfiles : UsableFiles x c as) (hnum : UsableNumbers x c w p)
    {afile : List Char} {alines : List (Option (List Char))} {alphabet : Alphabet}
    (ha : (.alphabet, afile) ∈ c.given) (hal : x.load.file afile = some alines)
    (hae : List.Forall₂ (AlphabetLine x.load.isSpace) (nonEmpty alines) alphabet) {files : List (List Char)}
    {inputs : List (List (Option (List Char)))} (hin : InputsOf x files inputs) :
    (∃ out, x.main c files = .ok out) ↔
      (p.singleThread = false → ∀ lines ∈ inputs, none ∉ lines) ∧
      ∀ lines ∈ inputs, ∀ l, some l ∈ lines →
        Searchable x.text.f32 alphabet p.variant (Sought as) l := by
  obtain ⟨L, asked, hlex, _, _, _, _, hdef⟩ := usable_searchable hmarks hb hc hfiles hnum ha hal hae
  rw [asked_main hf hpos hc (by rw [hsub]; decide) (by rw [hsub]; decide) asked]
  unfold ToolExt.modes
  rw [inputsOf_iff.mpr hin, hsub]
  constructor
  · rintro ⟨out, hout⟩
    have hout : x.query c L (x.config c L w) p inputs = .ok out := hout
    refine ⟨fun hst lines hl hnone => query_line_fails hl (.inl ⟨hst, hnone⟩) out hout,
      fun lines hl l hl' => (hdef l).mp ?_⟩
    by_contra hcon
    exact query_line_fails hl (.inr ⟨l, hl', fun vs h => hcon ⟨vs, h⟩⟩) out hout
  · rintro ⟨h1, h2⟩
    obtain ⟨s, hs⟩ := query_total_of (x := x) (c := c) hlex hnum.nonzero h1
      fun lines hli l hl => (hdef l).mpr (h2 lines hli l hl)
    exact ⟨_, hs⟩

theorem ex_sought : Sought (exAdded.take 3) "ab".toList :=
  ⟨by unfold Reserved; decide, (some 3, { index := 1 }), [(none, { index := 2 })], by decide, by decide⟩

/-- The query of the examples, on lines that can be searched for, and on a row of 65536 letters. -/
def exToolLong (n : Nat) : ToolExt := { exToolR with stdin := [some "ab b".toList, some (List.replicate n 'a')] }

theorem exAlphabetLong : List.Forall₂ (AlphabetLine exToolR.load.isSpace)
    (nonEmpty [some "a\tA".toList, some ['b']]) [["a".toList, "A".toList], ["b".toList]] := by
  obtain ⟨entries, e1, e2, _⟩ := read_alphabet_entries (isSpace := exToolR.load.isSpace) rfl []
    [some "a\tA".toList, some ['b']]
  have he : entries = [["a".toList, "A".toList], ["b".toList]] := by
    rw [List.nil_append] at e2
    rw [← e2]
    decide
  rwa [he] at e1

/-- The query of the examples succeeds if the row is not empty and fits. -/
example (n : Nat) : (∃ out, (exToolLong n).main exQueryR [] = .ok out) ↔
    0 < n ∧ ∃ k, Allowed exToolR.text.f32 n (exNumbers exQueryR).variant.maxAnagramDistance k ∧
      n + k < 65536 := by
  have hfit := (fits_of_numbers exNumbersQuery).1
  rw [query_succeeds_iff (x := exToolLong n) (alphabet := [["a".toList, "A".toList], ["b".toList]])
    (alines := [some "a\tA".toList, some ['b']]) (afile := ['a'])
    ex_noSemicolon ex_pos ex_marks rfl (accepted_of (by decide) (by decide)) rfl
    ⟨exUsableQuery.files, exUsableQuery.short⟩ ⟨exNumbersQuery.weights, exNumbersQuery.nonzero,
      exNumbersQuery.params, exNumbersQuery.cutoff, exNumbersQuery.debug⟩ (by decide) rfl exAlphabetLong
    (.inl ⟨rfl, rfl⟩)]
  have hf : ∀ k, Allowed exToolR.text.f32 n (exNumbers exQueryR).variant.maxAnagramDistance k →
      (FitsCounter exToolR.text.f32 [["a".toList, "A".toList], ["b".toList]] (exNumbers exQueryR).variant
        (List.replicate n 'a') ↔ n + k < 65536) := fun k hk => ex_fits [["b".toList]] hk
  obtain ⟨k, hk⟩ := allowed_exists (r := exToolR.text.f32) (len := n) hfit
  constructor
  · rintro ⟨_, h⟩
    rcases h _ (List.mem_singleton.mpr rfl) (List.replicate n 'a') (by simp [exToolLong]) with
      h | ⟨h1, h2 | ⟨h2, _⟩⟩
    · exact absurd ex_sought (h _)
    · exact ⟨Nat.pos_of_ne_zero fun h => h1 (by rw [h]; rfl), k, hk, (hf k hk).mp h2⟩
    · exact absurd h2 (by decide +kernel)
  · rintro ⟨h0, k, hk, hlt⟩
    refine ⟨fun _ lines hl => ?_, fun lines hl l h => ?_⟩ <;> rw [List.mem_singleton] at hl <;> subst hl
    · simp [exToolLong]
    · simp only [exToolLong, List.mem_cons, Option.some.injEq, List.not_mem_nil, or_false] at h
      rcases h with rfl | rfl
      · exact .inr ⟨by decide, .inl (short_fits (by unfold NoEmpty; decide) hfit (by decide))⟩
      · exact .inr ⟨fun h => by simp at h; omega, .inl ((hf k hk).mpr hlt)⟩

end Verif.Props
