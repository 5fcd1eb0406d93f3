import Verif.Spec.Idempotent
import Verif.Props.Unsuggested

/-!
# No known error is left after correction (C141)
-/
namespace Verif.Props

open Verif.Spec Verif.Model Verif.Lemmas

theorem firstOnes_ne_nil {α : Type} {n : Nat} {score sim : α → Rat} {l : List α} (h : l ≠ []) :
    firstOnes n score sim l ≠ [] := by
  unfold firstOnes
  split
  · exact h
  · next hn =>
    have hk : keptWith n (l.map fun a => (score a, sim a)) ≠ 0 := by
      unfold keptWith
      split
      · split
        · exact hn
        · split
          · simpa using h
          · omega
      · simpa using h
    obtain ⟨k, hk⟩ := Nat.exists_eq_succ_of_ne_zero hk
    obtain ⟨a, t, rfl⟩ := List.exists_cons_of_ne_nil h
    rw [hk, List.take_succ_cons]
    exact List.cons_ne_nil _ _

theorem closeOnes_ne_nil {α : Type} {r : Rounding} {cutoff : Rat} {score : α → Rat} {l : List α} (h : l ≠ []) :
    closeOnes r cutoff score l ≠ [] := by
  obtain ⟨a, t, rfl⟩ := List.exists_cons_of_ne_nil h
  unfold closeOnes
  split <;> simp

/-- **C141**, for the library: something is suggested for a variant or error. -/
theorem linked_suggested {x : TextExt} {alphabet : Alphabet} {L : Lexis} {cfg : Config} {p : Params}
    {text : List Char} {res : List Suggestion} (hS : Suggestions x alphabet L cfg p text res)
    (hw : WeightsOk x.f64 cfg.weights) (hs : p.scoreThreshold ≤ 1)
    (fa : Fits p.maxAnagramDistance) (fe : Fits p.maxEditDistance) (h0 : text ≠ [])
    {qs : List Nat} (hqs : Encodes alphabet (alphabet.length + 1) text qs)
    (hi : L.indexed text) (hl : L.linked text) (hlinks : L.links text ≠ []) : res ≠ [] := by
  obtain ⟨factor, top, base, weighted, all, ranked, kept, final, h⟩ := hS
  have hnear := near_self (p := p) hw fa fe h0 hqs
  have hreach : Reached x alphabet L cfg.weights p text text 1 := by
    refine ⟨hi, hnear, fun _ _ => ?_⟩
    obtain ⟨a, _, _, _, _, _, _, h1, _⟩ := hnear
    exact ⟨a, a, h1, h1, List.Perm.refl _⟩
  have hbase : (⟨text, 1, L.count x.f64 text, none⟩ : Suggestion) ∈ base :=
    (h.scored.mem _).mpr ⟨hreach, hs, rfl, rfl⟩
  obtain ⟨v, hv, ev⟩ : ∃ v ∈ weighted, v.word = text := by
    by_cases he : cfg.confusables ≠ [] ∧ cfg.confusablesBeforePruning = true
    · rw [h.early he]
      exact ⟨_, List.mem_map.mpr ⟨_, hbase, rfl⟩, rfl⟩
    · rw [h.notEarly he]
      exact ⟨_, hbase, rfl⟩
  have hall : all ≠ [] := by
    rw [h.linked ⟨text, 1, hreach, hl⟩]
    obtain ⟨k, hk⟩ := List.exists_mem_of_ne_nil _ hlinks
    refine List.ne_nil_of_mem (List.mem_flatMap.mpr ⟨v, hv, List.mem_append_left _ (List.mem_map.mpr ⟨k, ?_, rfl⟩)⟩)
    rw [ev]
    exact hk
  have hranked : ranked ≠ [] := fun e => by
    have hp := h.perm
    rw [e] at hp
    exact hall (List.map_eq_nil_iff.mp hp.nil_eq.symm)
  have hkept : kept ≠ [] := by
    rw [h.first]
    refine firstOnes_ne_nil fun e => hranked ?_
    simpa using e
  have hfinal : final ≠ [] := by
    by_cases he : cfg.confusables ≠ [] ∧ cfg.confusablesBeforePruning = false
    · intro e
      have hp := (h.late he).1
      rw [e] at hp
      exact hkept (List.map_eq_nil_iff.mp hp.nil_eq.symm)
    · rw [h.notLate he]
      exact hkept
  rw [h.result]
  exact closeOnes_ne_nil hfinal

/-- **C141**: if each line of a query is replaced by what is suggested first for it (or left, if nothing is), no line is a
known error any more. -/
theorem no_error_left {x : ToolExt} (hf : ∀ s, ';' ∈ s → x.parseF32 s = none)
    (hpos : StrictMono x.pos) (hmarks : MarksOk x.load.isSpace) (hb : x.load.isSpace '\\' = false)
    {c : CommandLine} (hc : Accepted c) (hsub : c.sub = .query)
    (hplain : ∀ o ∈ [OptName.json, .outputLexmatch, .lm], ¬ Given c o)
    {as : List (List (List Char × Option Nat × VocabParams))} {w : Weights} {p : TextParams}
    (hfiles : UsableFiles x c as) (hnum : UsableNumbers x c w p) (hw : WeightsOk x.text.f64 w)
    (hfw : 0 ≤ p.variant.freqWeight) (hs : p.variant.scoreThreshold ≤ 1)
    {afile : List Char} {alines : List (Option (List Char))} {alphabet : Alphabet}
    (ha : (.alphabet, afile) ∈ c.given) (hal : x.load.file afile = some alines)
    (hae : List.Forall₂ (AlphabetLine x.load.isSpace) (nonEmpty alines) alphabet)
    {kss : List (List (List Char × List Char × Rat))}
    (hk : List.Forall₂ (Gives x.load) (sourcesGiven c) kss) (hrefs : ∀ k ∈ kss.flatten, ¬ Reserved k.1)
    {cs : List Confusable} (hcs : ConfusablesGiven x c cs)
    {files : List (List Char)}
    {inputs : List (List (Option (List Char)))} (hin : InputsOf x files inputs)
    (hread : p.singleThread = false → ∀ lines ∈ inputs, none ∉ lines)
    (hlines : ∀ l ∈ inputs.flatMap readable, l ≠ [] ∧ ShortEnough x.text alphabet p.variant l) :
    ∃ rs : List (List Char × List (List Char × Rat)), rs.map Prod.fst = inputs.flatMap readable ∧
      x.main c files = .ok (.output (rs.flatMap fun r => printed x r.1 r.2) []) ∧
      ∀ l ∈ corrections rs, ¬ Reserved l → ¬ OnlyError as kss.flatten l := by
  have hlm : (c.given.filterMap fun g => if g.1 = .lm then some g.2 else none) = [] := by
    rw [List.filterMap_eq_nil_iff]
    intro g hg
    rw [if_neg]
    intro e
    exact hplain .lm (by simp) ⟨g.2, e ▸ hg⟩
  have hss : sourcesGiven c = (c.given.filterMap resourceOf).map sourceOf := by
    unfold sourcesGiven
    rw [hlm, List.map_nil, List.append_nil]
  have hadds : AddsAll x.load 0 (sourcesGiven c) as := by
    obtain ⟨args, hnamed, hload⟩ := hfiles.1
    have := hload.words
    unfold sourcesOf at this
    rw [hnamed.resources, hnamed.lm] at this
    exact this
  have hindexed := addsAll_indexed (hss ▸ hadds)
  obtain ⟨fa, fe⟩ := fits_of_numbers hnum
  obtain ⟨early, hearly⟩ : ∃ early : Bool, early = true ↔ Given c .earlyConfusables := by
    classical exact ⟨decide _, decide_eq_true_iff⟩
  obtain ⟨rows, h1, h2⟩ := query_prints_suggestions hf hpos hmarks hb hc hsub (hplain _ (by simp)) hfiles hnum
    hfw ha hal hae hk hrefs hcs hearly hin hread hlines
  obtain ⟨rs, e1, e2, rfl⟩ := forall₂_pull (proj := Prod.fst)
    (P := fun r : List Char × List (List Char × Rat) => (∀ u ∈ r.2, ¬ OnlyError as kss.flatten u.1) ∧
      (¬ Reserved r.1 → OnlyError as kss.flatten r.1 → r.2 ≠ []))
    (G := fun r => printed x r.1 r.2) ((forall₂_mem_left h1).imp fun l row hr => by
      obtain ⟨⟨us, cols, hS, hcols, rfl⟩, hl⟩ := hr
      obtain ⟨hl0, qs, _, hqs, _⟩ := hlines l hl
      refine ⟨(l, us.map fun u => (u.word, u.overall x.text.f64 p.variant.freqWeight)), rfl, ⟨?_, ?_⟩, ?_⟩
      · intro u hu
        obtain ⟨u', hu', rfl⟩ := List.mem_map.mp hu
        exact lists_unsuggested hS u' hu'
      · intro hnr ho e
        obtain ⟨k, hkm, hkl, hne⟩ := ho.error
        have hp : k ∈ proper kss.flatten := List.mem_filter.mpr ⟨hkm, by simpa [hkl] using hne⟩
        refine linked_suggested hS hw hs fa fe hl0 hqs ⟨hnr, ?_⟩ ⟨k, hp, .inr hkl⟩ ?_ (List.map_eq_nil_iff.mp e)
        · obtain ⟨a, ham, ea⟩ := gives_variant hadds hk k hkm
          cases hfd : as.flatten.find? (fun a => a.1 = l) with
          | none =>
            have := List.find?_eq_none.mp hfd a ham
            simp [ea, hkl] at this
          | some b => exact ⟨b, rfl, hindexed b (List.mem_of_find?_eq_some hfd)⟩
        · exact List.ne_nil_of_mem
            (List.mem_map.mpr ⟨k, List.mem_filter.mpr ⟨hp, by simpa using hkl⟩, rfl⟩)
      · rw [suggestion_columns (hplain .outputLexmatch (by simp)) hcols, printed])
  refine ⟨rs, e1, by rw [h2, List.flatMap_def], fun l hl hnr ho => ?_⟩
  obtain ⟨r, hr, rfl⟩ := List.mem_map.mp hl
  obtain ⟨g1, g2⟩ := e2 r hr
  cases hfo : r.2 with
  | nil =>
    rw [hfo] at hnr ho
    exact g2 hnr ho hfo
  | cons u rest =>
    rw [hfo] at ho
    exact g1 u (by rw [hfo]; exact List.mem_cons_self) ho

/-! ### Example -/

/-- A query for `ab`, `ab b` and `bb`, of which `bb` is an error for `b`; with confusables, frequencies and limits. -/
example : ∃ rs : List (List Char × List (List Char × Rat)),
    rs.map Prod.fst = ["ab".toList, "ab b".toList, "bb".toList] ∧
    exToolR.main exQueryU [['q'], ['-']] = .ok (.output (rs.flatMap fun r => printed exToolR r.1 r.2) []) ∧
    "bb".toList ∉ corrections rs := by
  obtain ⟨entries, e1, e2, _⟩ := read_alphabet_entries (isSpace := exToolR.load.isSpace) rfl []
    [some "a\tA".toList, some ['b']]
  have he : entries = [["a".toList, "A".toList], ["b".toList]] := by
    rw [List.nil_append] at e2
    rw [← e2]
    decide
  rw [he] at e1
  have hread : ∀ lines ∈ [[some "ab".toList], exToolR.stdin], none ∉ lines := by
    intro lines hl
    simp only [List.mem_cons, List.not_mem_nil, or_false] at hl
    rcases hl with rfl | rfl <;> decide
  have e : [[some "ab".toList], exToolR.stdin].flatMap readable = ["ab".toList, "ab b".toList, "bb".toList] := by
    decide
  have hlines : ∀ l ∈ [[some "ab".toList], exToolR.stdin].flatMap readable, l ≠ [] ∧ l.length ≤ 4 := by
    rw [e]
    decide
  obtain ⟨rs, h1, h2, h3⟩ := no_error_left (x := exToolR) (c := exQueryU) ex_noSemicolon ex_pos ex_marks rfl
    (accepted_of (by decide) (by decide)) rfl
    (by
      have : ∀ o ∈ [OptName.json, .outputLexmatch, .lm], ∀ g ∈ exQueryU.given, g.1 ≠ o := by decide
      exact fun o ho => not_given (this o ho))
    ⟨⟨{ exArgs with lm := [] }, by constructor <;> decide, exLoadableQuery⟩, by decide⟩
    (exUsableNumbers (accepted_of (by decide) (by decide)) rfl (by decide +kernel) rfl
      (exSome exTextParams (by decide +kernel)) (.inr (by decide +kernel)))
    exWeightsM (by decide +kernel) (by decide +kernel) (afile := ['a']) (by decide) rfl e1
    (kss := exLinksE) exGivesE (by unfold Reserved; decide) (exConfusablesE (by decide))
    (files := [['q'], ['-']]) (inputs := [[some "ab".toList], exToolR.stdin]) (inputsOf_iff.mp (by decide)) (fun _ => hread)
    fun l hl => ⟨(hlines l hl).1, by
      have := exShortS (hlines l hl).2
      unfold ShortEnough at this ⊢
      exact this⟩
  exact ⟨rs, by rw [h1, e], h2, fun hl => h3 _ hl (by unfold Reserved; decide) exOnlyError⟩

end Verif.Props
