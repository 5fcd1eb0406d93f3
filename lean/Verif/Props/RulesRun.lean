import Verif.Spec.WeighedFiles
import Verif.Props.Context

/-!
# C109: the context rules of the files as the program applies them
-/
namespace Verif.Props

open Verif.Model Verif.Spec Verif.Lemmas

/-- The word that an output symbol stands for: the text of its entry; none for entry 0 (`<bos>`), that of stretches
without a suggestion. -/
def SymbolWord (vm : Vm) (o : OutputSymbol) (w : Option (List Char)) : Prop :=
  (o.vocabId = 0 ∧ w = none) ∨ ∃ v, o.vocabId ≠ 0 ∧ vm.decoder[o.vocabId]? = some v ∧ w = some v.text

theorem symbol_entry {vm : Vm} (hinv : Inv vm) {o : OutputSymbol} {w : Option (List Char)} (h : SymbolWord vm o w) :
    SameEntry vm (vm.symbolLexindex o) w := by
  unfold Vm.symbolLexindex
  rcases h with ⟨h1, h2⟩ | ⟨v, h1, h2, h3⟩
  · rw [if_pos h1, h1, h2]
    exact .inl ⟨rfl, rfl⟩
  · rw [if_neg h1, h2, h3]
    refine .inr ⟨_, v, rfl, ?_, h1, h2, rfl, rfl⟩
    intro hb
    have e1 := (hinv.bij _ _).mpr hinv.bos
    have e2 : vm.encoder.get? bosText = some o.vocabId := (hinv.bij _ _).mpr (by
      simp only [textAt, h2, Option.map_some, Option.some.injEq]
      rw [hb]
      rfl)
    rw [e1] at e2
    exact h1 (Option.some.inj e2).symm

/-- **C109**: what the program computes for a sequence of output symbols, with the model and the rules that were loaded,
are the context score and the tags that the rules in the files give to the words of the sequence. -/
theorem loaded_rules_run {x : LoadExt} (hmarks : MarksOk x.isSpace) {args : LoadArgs} {o : Orders} {L : Loaded}
    (h : x.load args o = .ok L) (hcount : (sourcesOf args).length ≤ 256)
    {as : List Additions} (has : AddsAll x 0 (sourcesOf args) as) {rules : List WrittenRule}
    (hrules : RulesIn x args.contextrules rules)
    (hk : ∀ r ∈ rules, NamesKnown ((sourcesOf args).map Source.name) as r)
    (htags : (rules.map fun r => r.tags.length).sum ≤ 65536) (y : TextExt)
    {syms : List OutputSymbol} {ws : List (Option (List Char))} (hs : List.Forall₂ (SymbolWord L.vm) syms ws) :
    ∃ score results tags, L.vm.testContextRules y L.book.rules syms = .ok (score, results) ∧
      WordsContext y ((sourcesOf args).map Source.name) as rules ws score ∧
      WordTags ((sourcesOf args).map Source.name) as rules ws tags ∧
      List.Forall₂ (fun r ns => List.Forall₂ (fun (t : Nat × Nat) (n : List Char × Nat) =>
        Resolves L.book.tags t.1 n.1 ∧ t.2 = n.2) r ns) (tagsOf results) tags := by
  have hr := loaded_written hmarks h hcount has hrules hk htags
  have hok : ∀ r ∈ L.book.rules, RuleOk r := fun r hr' => by
    obtain ⟨_, _, hs⟩ := mem_of_forall₂_left hr hr'
    exact hs.ok
  have hinv := loaded_inv h
  have he : List.Forall₂ (SameEntry L.vm) (syms.map L.vm.symbolLexindex) ws := by
    rw [List.forall₂_map_left_iff]
    exact hs.imp fun _ _ h1 => symbol_entry hinv h1
  have hm := marked_takes hr
  obtain ⟨A, score, results, c1, c2, c3, c4, c5, c6, c7⟩ := context_rules L.vm y L.book.rules syms hok
  have hA := (greedy_applied h hcount has he hr A).mp c2
  have hlen := hs.length_eq
  -- matches with these tags
  let toMatch : OutputSymbol × List (Nat × Nat) → Match := fun p =>
    { text := [], first := 0, last := 0, variants := some [⟨p.1.vocabId, 0, 0, none⟩], selected := some 0,
      tag := p.2.map Prod.fst, seqnr := p.2.map Prod.snd }
  have hzl : (syms.zip (tagsOf results)).length = syms.length := by simp [tagsOf, c3]
  have hce : ∀ p, chosenEntry L.vm (toMatch p) = L.vm.symbolLexindex p.1 := by
    intro p
    unfold chosenEntry Vm.symbolLexindex
    simp only [toMatch, Option.bind_some, List.getElem?_cons_zero]
    split
    · rfl
    · cases L.vm.decoder[p.1.vocabId]? <;> rfl
  have hfst : (syms.zip (tagsOf results)).map Prod.fst = syms :=
    List.map_fst_zip (by simp [tagsOf, c3])
  have hsnd : (syms.zip (tagsOf results)).map Prod.snd = tagsOf results :=
    List.map_snd_zip (by simp [tagsOf, c3])
  have hent : ((syms.zip (tagsOf results)).map toMatch).map (chosenEntry L.vm) = syms.map L.vm.symbolLexindex := by
    rw [List.map_map, ← congrArg (List.map L.vm.symbolLexindex) hfst, List.map_map]
    exact List.map_congr_left fun p _ => hce p
  have hT : Tagged L.vm L.book.rules ((syms.zip (tagsOf results)).map toMatch) := by
    refine ⟨A, hent ▸ c2, fun i m hi => ?_⟩
    rw [List.getElem?_map, Option.map_eq_some_iff] at hi
    obtain ⟨p, hp, rfl⟩ := hi
    have hi' : i < syms.length := hzl ▸ (List.getElem?_eq_some_iff.mp hp).1
    have h2 : (tagsOf results)[i]? = some p.2 := by
      rw [← hsnd, List.getElem?_map, hp]; rfl
    rw [tagsOf, List.getElem?_map] at h2
    constructor
    · intro a ha rule hrule hmark
      rw [c4 a ha rule hrule i hmark, Option.map_some, tags_assigned] at h2
      rw [Option.some.inj h2]
      exact ⟨rfl, rfl⟩
    · intro hno
      rw [c5 i hi' hno, Option.map_some] at h2
      have := Option.some.inj h2
      simp only [toMatch, ← this]
      exact ⟨rfl, rfl⟩
  have hw : List.Forall₂ (fun m w => SameEntry L.vm (chosenEntry L.vm m) w)
      ((syms.zip (tagsOf results)).map toMatch) ws := by
    rw [← hent, List.forall₂_map_left_iff] at he
    exact he
  obtain ⟨tags, t1, t2⟩ := loaded_tags hmarks h hcount has hrules hk htags hw hT
  refine ⟨score, results, tags, c1, ⟨A, hA, ?_⟩, t1, ?_⟩
  · by_cases hA0 : A = []
    · exact .inl ⟨hA0, c6 hA0⟩
    · obtain ⟨scores, s1, s2, s3, s4⟩ := c7 hA0
      refine .inr ⟨hA0, scores, s1.trans hlen, ?_, ?_, ?_⟩
      · intro a ha r hra i hi
        obtain ⟨rule, h2, h3⟩ := forall₂_get' hr hra
        rw [s2 a ha rule h2 i ((hm a i).mpr hi), h3.score]
      · intro i hi hno
        exact s3 i (hlen ▸ hi) fun a ha hmk => hno a ha ((hm a i).mp hmk)
      · rw [s4, hlen]
        rfl
  · rw [List.forall₂_map_left_iff] at t2
    rw [← hsnd, List.forall₂_map_left_iff]
    refine t2.imp ?_
    intro p ns hp
    obtain ⟨e1, e2⟩ := hp
    simp only [toMatch] at e1 e2
    generalize p.2 = l at e1 e2
    induction l generalizing ns with
    | nil => cases e1; exact .nil
    | cons t l ih =>
      rw [List.map_cons] at e1 e2
      cases e1 with
      | cons e3 e4 =>
        rw [List.map_cons, List.cons.injEq] at e2
        exact .cons ⟨e3, e2.1⟩ (ih _ e4 e2.2)

/-- The rule `ab;b` of the files for the words `ab` and `b` and a stretch without a suggestion. -/
example : ∃ score results tags,
    exLoadedR.vm.testContextRules exText exLoadedR.book.rules [⟨5, 0, some 0, 0, 1⟩, ⟨3, 1, some 0, 1, 2⟩, ⟨0, 2, none, 2, 3⟩] =
      .ok (score, results) ∧
    WordsContext exText [['e'], ['l'], ['v'], ['m']] exAdded [exWritten] [some "ab".toList, some ['b'], none] score ∧
    WordTags [['e'], ['l'], ['v'], ['m']] exAdded [exWritten] [some "ab".toList, some ['b'], none] tags ∧
    (tagsOf results).length = tags.length := by
  obtain ⟨score, results, tags, h1, h2, h3, h4⟩ := loaded_rules_run ex_marks exLoadedR_ok (by decide) exLoadable.words
    exRulesIn exKnownW (by decide) exText (syms := [⟨5, 0, some 0, 0, 1⟩, ⟨3, 1, some 0, 1, 2⟩, ⟨0, 2, none, 2, 3⟩])
    (ws := [some "ab".toList, some ['b'], none])
    (.cons (.inr ⟨_, by decide, rfl, rfl⟩) (.cons (.inr ⟨_, by decide, rfl, rfl⟩)
      (.cons (.inl ⟨rfl, rfl⟩) .nil)))
  exact ⟨score, results, tags, h1, h2, h3, h4.length_eq⟩

end Verif.Props
