import Verif.Spec.LoadTotal
import Verif.Lemmas.LoadTotal
import Verif.Lemmas.Book
import Verif.Props.Load

/-!
# Properties of loading: rules (C80), and that loading succeeds (C89)
-/
namespace Verif.Props

open Verif.Spec Verif.Model Verif.Lemmas

/-! ## C80: the rules that were loaded -/

theorem read_append {env : RuleEnv} {pf : List Char → Option Rat} {ls : List (Option (List Char))} :
    ∀ {b b1 : RuleBook}, b.read env pf ls = .ok (b1, true) →
    ∀ (ls' : List (Option (List Char))), b.read env pf (ls ++ ls') = b1.read env pf ls' := by
  induction ls with
  | nil => intro b b1 h ls'; cases h; rfl
  | cons l ls ih =>
    intro b b1 h ls'
    cases l with
    | none => exact ih h ls'
    | some line =>
      obtain ⟨⟨b2, ok⟩, h1, h2⟩ := bind_ok.mp h
      cases ok with
      | false => cases h2
      | true =>
        rw [List.cons_append, RuleBook.read, h1]
        exact ih h2 ls'

theorem readRuleFiles_iff (x : LoadExt) (m : Vm) (fs : List (List Char)) : ∀ (b b' : RuleBook),
    readRuleFiles x m b fs = .ok b' ↔
      ∃ liness, List.Forall₂ (fun f lines => x.file f = some lines) fs liness ∧
        b.read ⟨x.isSpace, m.lexicons, m.encoder⟩ x.parseF32 liness.flatten = .ok (b', true) := by
  induction fs with
  | nil =>
    intro b b'
    constructor
    · intro h; cases h; exact ⟨[], .nil, rfl⟩
    · rintro ⟨_, h, h'⟩
      cases h
      cases h'
      rfl
  | cons f fs ih =>
    intro b b'
    constructor
    · intro h
      obtain ⟨lines, h1, h⟩ := bind_ok.mp h
      obtain ⟨⟨b1, ok⟩, h2, h⟩ := bind_ok.mp h
      cases ok with
      | false => cases h
      | true =>
        obtain ⟨liness, h3, h4⟩ := (ih _ _).mp h
        refine ⟨lines :: liness, .cons (open_ok.mp h1) h3, ?_⟩
        rw [List.flatten_cons, read_append h2]
        exact h4
    · rintro ⟨_, h, h'⟩
      cases h with
      | @cons _ lines _ liness h1 h2 =>
        rw [List.flatten_cons] at h'
        suffices hok : ∃ b1, b.read ⟨x.isSpace, m.lexicons, m.encoder⟩ x.parseF32 lines =
            .ok (b1, true) by
          obtain ⟨b1, h3⟩ := hok
          rw [read_append h3] at h'
          exact bind_ok.mpr ⟨lines, open_ok.mpr h1, bind_ok.mpr ⟨_, h3, (ih _ _).mpr ⟨_, h2, h'⟩⟩⟩
        clear h2 h1 ih
        generalize liness.flatten = rest at h'
        revert h'
        generalize (⟨x.isSpace, m.lexicons, m.encoder⟩ : RuleEnv) = env
        induction lines generalizing b with
        | nil => intro _; exact ⟨b, rfl⟩
        | cons l lines ih =>
          intro h
          cases l with
          | none => exact ih b h
          | some line =>
            obtain ⟨⟨b2, ok⟩, h1, h2⟩ := bind_ok.mp h
            cases ok with
            | false => cases h2
            | true =>
              obtain ⟨b1, h3⟩ := ih b2 h2
              exact ⟨b1, bind_ok.mpr ⟨_, h1, h3⟩⟩

/-- **C80**: the rules of a loaded model are those of all files of rules, in order, read with the names of
the lexicons and the words of the model; the tags likewise. -/
theorem loaded_rules {x : LoadExt} {args : LoadArgs} {o : Orders} {L : Loaded}
    (h : x.load args o = .ok L) :
    ∃ liness, List.Forall₂ (fun f lines => x.file f = some lines) args.contextrules liness ∧
      RuleBook.read ⟨x.isSpace, L.vm.lexicons, L.vm.encoder⟩ x.parseF32 ⟨[], []⟩ liness.flatten =
        .ok (L.book, true) := by
  unfold LoadExt.load at h
  obtain ⟨m0, _, h⟩ := bind_ok.mp h
  obtain ⟨m1, _, h⟩ := bind_ok.mp h
  obtain ⟨m2, _, h⟩ := bind_ok.mp h
  obtain ⟨cs, _, h⟩ := bind_ok.mp h
  obtain ⟨book, h4, h⟩ := bind_ok.mp h
  obtain ⟨m3, h5, h⟩ := bind_ok.mp h
  cases pure_ok.mp h
  have h6 : m3.lexicons = m2.lexicons ∧ m3.encoder = m2.encoder := by
    rw [(build_cases h5).1]
    exact ⟨rfl, rfl⟩
  rw [readRuleFiles_iff] at h4
  show ∃ liness, _ ∧ RuleBook.read ⟨x.isSpace, m3.lexicons, m3.encoder⟩ _ _ _ = _
  rw [h6.1, h6.2]
  exact h4

/-- **C80**: if the lines of the files stand for requests to add rules (`LineFor`), then the rules of a
loaded model are those of these requests, in order, and all were accepted. -/
theorem loaded_rules_of_lines {x : LoadExt} {args : LoadArgs} {o : Orders} {L : Loaded}
    (h : x.load args o = .ok L) {callss : List (List (Option RuleCall))}
    (hc : List.Forall₂ (fun f calls => ∃ lines, x.file f = some lines ∧
      List.Forall₂ (fun line call => match line with
        | none => call = none
        | some line => LineFor x.isSpace x.parseF32 line call) lines calls) args.contextrules callss) :
    ∃ flags, addAll ⟨x.isSpace, L.vm.lexicons, L.vm.encoder⟩ ⟨[], []⟩ (callss.flatten.filterMap id) =
      .ok (L.book, flags) ∧ ∀ b ∈ flags, b = true := by
  obtain ⟨liness, h1, h2⟩ := loaded_rules h
  have hf : List.Forall₂ (fun line call => match line with
      | none => call = none
      | some line => LineFor x.isSpace x.parseF32 line call) liness.flatten callss.flatten := by
    clear h h2
    generalize args.contextrules = fs at hc h1
    induction hc generalizing liness with
    | nil => cases h1; exact .nil
    | cons a _ ih =>
      cases h1 with
      | cons b bs =>
        obtain ⟨lines, a1, a2⟩ := a
        rw [a1] at b
        cases b
        simp only [List.flatten_cons]
        exact List.rel_append a2 (ih _ bs)
  rw [read_rules (env := ⟨x.isSpace, L.vm.lexicons, L.vm.encoder⟩) hf] at h2
  generalize callss.flatten.filterMap id = calls at h2
  revert h2
  generalize (⟨x.isSpace, L.vm.lexicons, L.vm.encoder⟩ : RuleEnv) = env
  generalize (⟨[], []⟩ : RuleBook) = b
  intro h2
  clear hf h1 hc h
  induction calls generalizing b with
  | nil => cases h2; exact ⟨[], rfl, by simp⟩
  | cons c cs ih =>
    obtain ⟨⟨b1, ok⟩, h3, h4⟩ := bind_ok.mp h2
    cases ok with
    | false => cases h4
    | true =>
      obtain ⟨flags, h5, h6⟩ := ih _ h4
      refine ⟨true :: flags, bind_ok.mpr ⟨_, h3, bind_ok.mpr ⟨_, h5, rfl⟩⟩, ?_⟩
      intro f hf
      rcases List.mem_cons.mp hf with rfl | hf
      · rfl
      · exact h6 f hf

/-! ## C89: loading succeeds -/

theorem known_mono {lexicons : List (List Char)} {e e' : HMap (List Char) Nat}
    (h : ∀ t id, e.get? t = some id → ∃ id', e'.get? t = some id') (t : Term) :
    Known lexicons e t → Known lexicons e' t := by
  induction t with
  | word w => rintro ⟨id, hid⟩; exact h w id hid
  | not t ih => exact ih
  | lexicon n => exact id
  | _ => exact fun _ => trivial

theorem knownAll_mono {lexicons : List (List Char)} {e e' : HMap (List Char) Nat}
    (h : ∀ t id, e.get? t = some id → ∃ id', e'.get? t = some id') (ex : Expr) :
    KnownAll lexicons e ex → KnownAll lexicons e' ex := by
  induction ex with
  | parts t ts => exact fun hk u hu => known_mono h u (hk u hu)
  | notGroup e ih => exact ih

theorem rules_total {env : RuleEnv} (hm : MarksOk env.isSpace) {e : HMap (List Char) Nat}
    (he : ∀ t id, e.get? t = some id → ∃ id', env.encoder.get? t = some id')
    {pf : List Char → Option Rat} (lines : List (Option (List Char))) : ∀ (b : RuleBook), b.tags.Nodup →
    (∀ r ∈ b.rules, RuleOk r) →
    (∀ l ∈ lines, RuleLineOk ⟨env.isSpace, env.lexicons, e⟩ pf l) →
    ∃ b', b.read env pf lines = .ok (b', true) ∧ b'.tags.Nodup ∧ ∀ r ∈ b'.rules, RuleOk r := by
  induction lines with
  | nil => intro b hn hr _; exact ⟨b, rfl, hn, hr⟩
  | cons l lines ih =>
    intro b hn hr hl
    cases l with
    | none => exact ih b hn hr fun l hl' => hl l (by simp [hl'])
    | some line =>
      obtain ⟨call, h1, h2⟩ := hl (some line) (by simp)
      suffices hstep : ∃ b1, b.readLine env pf line = .ok (b1, true) ∧ b1.tags.Nodup ∧
          ∀ r ∈ b1.rules, RuleOk r by
        obtain ⟨b1, g1, g2, g3⟩ := hstep
        obtain ⟨b2, g4, g5⟩ := ih b1 g2 g3 fun l hl' => hl l (by simp [hl'])
        exact ⟨b2, bind_ok.mpr ⟨_, g1, g4⟩, g5⟩
      rw [readLine_ok (env := env) h1]
      cases call with
      | none => exact ⟨b, rfl, hn, hr⟩
      | some c =>
        obtain ⟨es, ss, os, c1, c2, c3, c4, c5, c6, c7, c8, c9⟩ := h2 c rfl
        obtain ⟨rule, b1, a1, a2, a3, a4, a5, a6, a7⟩ := rule_added hm b hn c1 c2 c3 c4
          (fun ex hex => knownAll_mono he ex (c6 ex hex)) c.score c7 c8
        simp only
        rw [c5]
        refine ⟨b1, a1, (add_tags (c := ⟨_, c.score, c.tag, c.tagoffset⟩) hn a1).1, ?_⟩
        intro r hrm
        rw [a2] at hrm
        rcases List.mem_append.mp hrm with hrm | hrm
        · exact hr r hrm
        · rw [List.mem_singleton] at hrm
          subst hrm
          have hpl := a4.length_eq
          refine ⟨?_, ?_, by omega⟩
          · intro p hp
            obtain ⟨i, hi⟩ := List.mem_iff_getElem?.mp hp
            have := List.forall₂_iff_get.mp a4
            have hlt := lt_of_getElem? hi
            have h3 := this.2 i hlt (by omega)
            rw [List.get_eq_getElem] at h3
            rw [List.getElem?_eq_getElem hlt, Option.some.injEq] at hi
            rw [hi] at h3
            exact h3.1
          · intro y hy
            rw [a7] at hy
            rcases List.mem_append.mp hy with hy | hy
            · exact c9 y hy
            · rw [List.eq_of_mem_replicate hy]
              show 0 + es.length < 256
              omega

theorem readAlphabet_length (isSpace : Char → Bool) (lines : List (Option (List Char))) :
    ∀ (a : Alphabet), (readAlphabet isSpace a lines).length = a.length + (nonEmpty lines).length := by
  induction lines with
  | nil => intro a; simp [readAlphabet, nonEmpty, readable]
  | cons l lines ih =>
    intro a
    cases l with
    | none => rw [readAlphabet, ih]; simp [nonEmpty, readable]
    | some l =>
      rw [readAlphabet, ih]
      cases l with
      | nil => simp [nonEmpty, readable]
      | cons c l => simp [nonEmpty, readable]; omega

theorem confusables_total {x : LoadExt} (fs : List (List Char)) : ∀ (cs : List Confusable),
    (∀ f ∈ fs, ∃ lines new, x.file f = some lines ∧
      List.Forall₂ (ConfusableLine x) (nonEmpty lines) new) →
    ∃ cs', readConfusableLists x cs fs = .ok cs' := by
  induction fs with
  | nil => intro cs _; exact ⟨cs, rfl⟩
  | cons f fs ih =>
    intro cs h
    obtain ⟨lines, new, h1, h2⟩ := h f (by simp)
    obtain ⟨cs', h3⟩ := ih (cs ++ new) fun g hg => h g (by simp [hg])
    exact ⟨cs', bind_ok.mpr ⟨lines, open_ok.mpr h1, bind_ok.mpr
      ⟨(cs ++ new, true), (read_confusables x lines cs _).mpr ⟨new, h2, rfl⟩, h3⟩⟩⟩

/-- the words of the table are known -/
theorem wordTable_get {adds : List (List Char × Option Nat × VocabParams)} {t : List Char} {id : Nat}
    (h : (wordTable adds).get? t = some id) : ∃ b, (t, b) ∈ adds := by
  have := mem_of_get? h
  unfold wordTable at this
  obtain ⟨y, hy, e⟩ := List.mem_map.mp this
  rw [Prod.mk.injEq] at e
  exact ⟨y.2, by rw [← e.1]; exact hy⟩

/-- Loading succeeds, with bounds for what is counted. -/
theorem load_counts {x : LoadExt} (hmarks : MarksOk x.isSpace) {args : LoadArgs}
    {as : List (List (List Char × Option Nat × VocabParams))} (h : Loadable x args as) (o : Orders) :
    ∃ L, x.load args o = .ok L ∧ L.vm.alphabet.length ≤ 166 ∧ L.vm.lexicons.length ≤ 32 ∧
      (∀ r ∈ L.book.rules, RuleOk r) ∧ freqTotal L.vm.decoder ≤ addTotal as.flatten ∧
      ∀ g, count L.vm.ngrams g ≤ addTotal as.flatten := by
  obtain ⟨lines, hf, hl⟩ := h.alphabet
  have hne := read_alphabet_noEmpty x.isSpace lines
  have hlen : (readAlphabet x.isSpace [] lines).length ≤ 166 := by
    rw [readAlphabet_length]; simpa using hl
  have h0 : x.newModel args.alphabet = .ok (Vm.new (readAlphabet x.isSpace [] lines)) :=
    bind_ok.mpr ⟨lines, open_ok.mpr hf, rfl⟩
  generalize readAlphabet x.isSpace [] lines = A at hne hlen h0
  have r0 : Ready A 0 (Vm.new A) := ⟨inv_new A, rfl, rfl, Nat.le_refl _⟩
  have hsp : ∀ y ∈ as.flatten, spaces y.1 % 256 < 255 := by
    intro y hy
    have h1 := h.spaces y hy
    have h2 := Nat.mod_lt (spaces y.1) (show 256 > 0 by omega)
    unfold spaces at h2 ⊢
    omega
  obtain ⟨as1, as2, rfl, ha1, ha2⟩ := addsAll_split (show AddsAll x 0 (args.resources.map sourceOf ++
    args.lm.map .lm) as from h.words)
  have hcount := h.sources
  unfold sourcesOf at hcount
  rw [List.length_append, List.length_map, List.length_map] at hcount
  rw [List.flatten_append] at hsp
  obtain ⟨m1, g1, g2, g3⟩ := resources_total hne hlen args.resources r0
    (by show 0 + args.resources.length ≤ 32; omega) ha1 (fun y hy => hsp y (List.mem_append_left _ hy))
  have hm1 : m1.lexicons.length = args.resources.length := by rw [g3]; exact Nat.zero_add _
  obtain ⟨m2, g4, g5, g6⟩ := lms_total hne hlen args.lm g2 (by omega)
    (by rw [hm1]; simpa using ha2) (fun y hy => hsp y (List.mem_append_right _ hy))
  obtain ⟨cs, hcs⟩ := confusables_total (x := x) args.confusables [] h.confusables
  have hS := h.freqs
  rw [List.flatten_append, List.map_append, List.sum_append] at hS
  obtain ⟨m3, hm3, hfr, hct⟩ := build_total hne hlen (S := 0 + addTotal as1.flatten + addTotal as2.flatten)
    (by unfold addTotal; omega) g5 o
  -- what is known before the rules are read
  have i0 := inv_new A
  obtain ⟨ops1, bs1, a1, a2, a3⟩ := loads_resources i0 g1
  have i1 := a2.inv i0
  obtain ⟨ops2, bs2, b1, b2, b3⟩ := loads_lms i1 g4
  cases addsAll_unique ha1 a1
  have e2 : as2 = bs2 := by
    refine addsAll_unique ha2 ?_
    rw [hm1] at b1
    simpa using b1
  cases e2
  have hloads := a2.trans i1 b2
  have hlex : m2.lexicons = (sourcesOf args).map Source.name := by
    rw [b3, a3]
    simp [sourcesOf, Vm.new]
  have hknown : ∀ t id, (wordTable (as1 ++ as2).flatten).get? t = some id →
      ∃ id', m2.encoder.get? t = some id' := by
    intro t id hid
    obtain ⟨b, hb⟩ := wordTable_get hid
    by_cases hr : Reserved t
    · have hi2 := b2.inv i1
      rcases hr with rfl | rfl | rfl
      · exact ⟨0, (hi2.bij _ _).mpr hi2.bos⟩
      · exact ⟨1, (hi2.bij _ _).mpr hi2.eos⟩
      · exact ⟨2, (hi2.bij _ _).mpr hi2.unk⟩
    · have hmem : b ∈ addsOf t (as1.flatten ++ as2.flatten) := by
        rw [mem_addsOf, ← List.flatten_append]
        exact hb
      have hent := entry_of_history hloads.run hloads.learn hr
      rw [hloads.adds] at hent
      cases hl : addsOf t (as1.flatten ++ as2.flatten) with
      | nil => rw [hl] at hmem; cases hmem
      | cons c cs =>
        rw [hl] at hent
        obtain ⟨i, v, hv, _⟩ := hent
        exact ⟨i, hv.1⟩
  obtain ⟨liness, hfs, hok⟩ : ∃ liness : List (List (Option (List Char))),
      List.Forall₂ (fun f lines => x.file f = some lines) args.contextrules liness ∧
      ∀ l ∈ liness.flatten, RuleLineOk ⟨x.isSpace, m2.lexicons, wordTable (as1 ++ as2).flatten⟩
        x.parseF32 l := by
    have hr := h.rules
    rw [hlex]
    generalize args.contextrules = fs at hr
    induction fs with
    | nil => exact ⟨[], .nil, by simp⟩
    | cons f fs ih =>
      obtain ⟨lines, c1, c2⟩ := hr f (by simp)
      obtain ⟨liness, c3, c4⟩ := ih fun g hg => hr g (by simp [hg])
      refine ⟨lines :: liness, .cons c1 c3, ?_⟩
      intro l hl
      rw [List.flatten_cons] at hl
      rcases List.mem_append.mp hl with hl | hl
      · exact c2 l hl
      · exact c4 l hl
  obtain ⟨book, k1, _, k3⟩ := rules_total (env := ⟨x.isSpace, m2.lexicons, m2.encoder⟩) hmarks hknown
    (pf := x.parseF32) liness.flatten ⟨[], []⟩ List.nodup_nil (by simp) hok
  have hbook := (readRuleFiles_iff x m2 args.contextrules ⟨[], []⟩ book).mpr ⟨liness, hfs, k1⟩
  have halpha : m3.alphabet = A := by
    rw [(build_cases hm3).1]; exact g5.alphabet
  have hlex3 : m3.lexicons = m2.lexicons := by rw [(build_cases hm3).1]
  have htot : addTotal (as1 ++ as2).flatten = 0 + addTotal as1.flatten + addTotal as2.flatten := by
    rw [List.flatten_append, addTotal_append, Nat.zero_add]
  refine ⟨⟨m3, cs, book⟩, ?_, ?_, ?_, k3, by rw [htot]; exact hfr, by rw [htot]; exact hct⟩
  · exact bind_ok.mpr ⟨_, h0, bind_ok.mpr ⟨_, g1, bind_ok.mpr ⟨_, g4, bind_ok.mpr ⟨_, hcs,
      bind_ok.mpr ⟨_, hbook, bind_ok.mpr ⟨_, hm3, rfl⟩⟩⟩⟩⟩⟩
  · show m3.alphabet.length ≤ 166
    rw [halpha]; exact hlen
  · show m3.lexicons.length ≤ 32
    rw [hlex3, g6, hm1]; exact hcount

/-- **C89**: if the files of a command line can be opened and have lines as documented, with at most 166
lines in the alphabet, at most 32 sources of words, no word with 255 spaces and frequencies that sum to less
than `2 ^ 32`, then loading succeeds, and all rules are such that they can be applied. -/
theorem load_total {x : LoadExt} (hmarks : MarksOk x.isSpace) {args : LoadArgs}
    {as : List (List (List Char × Option Nat × VocabParams))} (h : Loadable x args as) (o : Orders) :
    ∃ L, x.load args o = .ok L ∧ L.vm.alphabet.length ≤ 166 ∧ L.vm.lexicons.length ≤ 32 ∧
      ∀ r ∈ L.book.rules, RuleOk r := by
  obtain ⟨L, h1, h2, h3, h4, _⟩ := load_counts hmarks h o
  exact ⟨L, h1, h2, h3, h4⟩

/-! ### An example -/

/-- The files of the example above, and one with a rule. -/
def exLoadR : LoadExt :=
  { exLoad with file := fun f => if f = ['r'] then some [some "# c".toList, none, some "ab;b\t0.5\tg".toList]
    else if f = ['q'] then some [some "ab".toList] else exFile f }

def exArgsR : LoadArgs := { exArgs with contextrules := [['r']] }

/-- The words of the four sources. -/
def exAdded : List (List (List Char × Option Nat × VocabParams)) :=
  [[("b".toList, none, {}), ("bb".toList, none, { vocabType := { indexed := true, transparent := true } })],
    [("ab".toList, some 3, { index := 1 }), ("b".toList, some 1, { index := 1 })],
    [("ab".toList, none, { index := 2 }), ("ba".toList, none, { index := 2 })],
    [("a b".toList, some 2, { index := 3, vocabType := .LM }),
      ("ab".toList, some 7, { index := 3, vocabType := .LM })]]

theorem exLoadable : Loadable exLoadR exArgsR exAdded := by
  have plain : ∀ {l r v s : List Char} {q : Rat}, splitChar '\t' l = [r, v, s] → exParseF64 s = some q →
      VariantLines exParseF64 none [l] [⟨r, none, [(v, q, none)]⟩] := by
    intro l r v s q h1 h2
    have hf := (fieldsOf_iff _ _).mpr h1
    exact .tells (.noFreq hf (by simp)) (.plain (.mk hf (.cons h2 .nil)) .nil)
  have vocab : ∀ {l t f : List Char} {n : Nat}, splitChar '\t' l = [t, f] →
      parseUnsigned (2 ^ 32 - 1) f = some n → VocabLine {} l (t, n) := by
    intro l t f n h1 h2
    exact ⟨[t, f], (fieldsOf_iff _ _).mpr h1, rfl,
      .inr ⟨1, rfl, .inr ⟨f, rfl, (parseUnsigned_iff _ _ _).mp h2⟩⟩⟩
  refine ⟨⟨_, rfl, by decide⟩, ?_, by decide, by decide, by decide, ?_, ?_⟩
  · refine .cons (a := [(['b'], none, {}), (['b', 'b'], none, _)]) ?_ (.cons ?_ (.cons ?_ (.cons ?_ .nil)))
    · exact Adds.errors (x := exLoadR) (f := ['e']) (lines := [some "b\tbb\t0.5".toList])
        (es := [⟨['b'], none, [(['b', 'b'], 1 / 2, none)]⟩]) rfl
        (plain (s := "0.5".toList) (by decide) (by decide +kernel))
    · exact Adds.lexicon (x := exLoadR) (f := ['l']) (es := [("ab".toList, 3), (['b'], 1)]) rfl
        (.cons (vocab (f := ['3']) (by decide) (by decide)) (.cons (vocab (f := ['1']) (by decide) (by decide)) .nil))
    · exact Adds.variants (x := exLoadR) (f := ['v']) (lines := [some "ab\tba\t0.9".toList, some [], none])
        (es := [⟨"ab".toList, none, [("ba".toList, 9 / 10, none)]⟩]) rfl
        (plain (s := "0.9".toList) (by decide) (by decide +kernel))
    · exact Adds.lm (x := exLoadR) (f := ['m']) (es := [("a b".toList, 2), ("ab".toList, 7)]) rfl
        (.cons (vocab (f := ['2']) (by decide) (by decide)) (.cons (vocab (f := ['7']) (by decide) (by decide)) .nil))
  · intro f hf
    have hf : f ∈ [['c']] := hf
    rw [List.mem_singleton] at hf
    subst hf
    obtain ⟨news, h1, _⟩ := loaded_confusables exLoaded_ok
    cases h1 with
    | cons h1 _ =>
      obtain ⟨lines, h2, h3⟩ := h1
      exact ⟨lines, _, h2, h3⟩
  · intro f hf
    have hf : f ∈ [['r']] := hf
    rw [List.mem_singleton] at hf
    subst hf
    have blank0 : Blank exLoadR.isSpace [] := by unfold Blank; decide
    refine ⟨[some "# c".toList, none, some "ab;b\t0.5\tg".toList], rfl, ?_⟩
    intro l hl
    simp only [List.mem_cons, List.not_mem_nil, or_false] at hl
    rcases hl with rfl | rfl | rfl
    · exact ⟨none, .comment, by simp⟩
    · trivial
    · refine ⟨some ⟨"ab;b".toList, 1 / 2, [['g']], [['0', ':']]⟩, ?_, ?_⟩
      · refine LineFor.oneTag (pattern := "ab;b".toList) (score := "0.5".toList) (cols := [['g']])
          (by decide) (by decide) (by decide) (by decide) (by decide +kernel) (by decide) (.tags ?_)
        exact ListText.name (a := []) (b := []) (n := ['g']) blank0 blank0 ⟨by decide, by decide⟩
          (by decide) (by decide)
      · intro c hc
        cases hc
        have word : ∀ w : List Char, Writable exLoadR.isSpace w →
            Writes exLoadR.isSpace (.parts (.word w) []) w := by
          intro w hw
          have := WritesTerm.word (a := []) (b := []) blank0 blank0 hw
          rw [List.nil_append, List.append_nil] at this
          exact .parts (.one this)
        refine ⟨[.parts (.word "ab".toList) [], .parts (.word ['b']) []], ["ab".toList, ['b']], [(0, 2)],
          .cons (word _ ?_) (.cons (word _ ?_) .nil), by decide, by decide, by decide, rfl, ?_, by decide,
          .cons (.begin (s := ['0']) ⟨[0], by decide, by decide, rfl, rfl, by decide⟩ (by decide)) .nil,
          by decide⟩
        · exact ⟨by decide, ⟨by decide, by decide⟩, by decide, by decide, by decide, by decide, by decide, by decide⟩
        · exact ⟨by decide, ⟨by decide, by decide⟩, by decide, by decide, by decide, by decide, by decide, by decide⟩
        · intro e he
          simp only [List.mem_cons, List.not_mem_nil, or_false] at he
          rcases he with rfl | rfl
          · intro u hu
            rw [List.mem_singleton] at hu
            subst hu
            exact ⟨0, rfl⟩
          · intro u hu
            rw [List.mem_singleton] at hu
            subst hu
            exact ⟨0, rfl⟩

/-- What is loaded for the rule `ab;b`. -/
example : ∃ L, exLoadR.load exArgsR exOrders = .ok L ∧ L.vm.alphabet.length ≤ 166 ∧
    L.vm.lexicons.length ≤ 32 ∧ ∀ r ∈ L.book.rules, RuleOk r :=
  load_total (by unfold MarksOk; decide) exLoadable exOrders

example : (exLoadR.load exArgsR exOrders).toOption.map (fun L => L.book.tags) = some [['g']] ∧
    (exLoadR.load exArgsR exOrders).toOption.map (fun L => L.book.rules.map (·.score)) = some [1 / 2] ∧
    (exLoadR.load exArgsR exOrders).toOption.map (fun L => L.book.rules.map (·.tagoffset)) =
      some [[(0, 2)]] := by
  refine ⟨?_, ?_, ?_⟩ <;> decide +kernel

end Verif.Props
