import Verif.Spec.Indexed
import Verif.Props.LearnedParts

/-!
# What the index of files is (C113)
-/
namespace Verif.Props

open Verif.Model Verif.Spec Verif.Lemmas

theorem firsts_nodup (l : List (List Char)) : (firsts id l).Nodup := by
  induction l with
  | nil => exact List.nodup_nil
  | cons a l ih =>
    rw [firsts]
    refine List.nodup_cons.mpr ⟨?_, ih.filter _⟩
    simp

/-- **C113**: each word is mentioned once. -/
theorem wordsOf_nodup (as : List (List (List Char × Option Nat × VocabParams))) : (wordsOf as).Nodup :=
  firsts_nodup _

/-- The texts of the entries that are looked up, in order. -/
theorem indexed_texts {x : LoadExt} {args : LoadArgs} {o : Orders} {L : Loaded} (h : x.load args o = .ok L)
    (hcount : (sourcesOf args).length ≤ 256)
    {as : List (List (List Char × Option Nat × VocabParams))} (has : AddsAll x 0 (sourcesOf args) as)
    (hs : args.lm = []) :
    (L.vm.decoder.filter fun v => v.vocabtype.check .INDEXED).map VocabValue.text = wordsOf as := by
  have hord := ordered_load h has
  have hi : ∀ y ∈ as.flatten, y.2.2.vocabType.indexed = true := by
    unfold sourcesOf at has
    rw [hs, List.map_nil, List.append_nil] at has
    exact addsAll_indexed has
  have e : (L.vm.decoder.filter fun v => v.vocabtype.check .INDEXED).map VocabValue.text =
      (L.vm.decoder.map VocabValue.text).filter fun t => decide (¬ Reserved t) := by
    rw [List.filter_map]
    congr 1
    refine List.filter_congr fun v hv => ?_
    rw [Bool.eq_iff_iff]
    simp only [Function.comp, decide_eq_true_eq]
    constructor
    · exact indexed_not_reserved hord.inv v hv
    · intro hr
      obtain ⟨b, bs, hb, _, _, h4⟩ := loaded_word h hcount has hv hr
      rw [check_indexed', h4]
      exact hi (v.text, b) (mem_addsOf.mp (by rw [hb]; exact List.mem_cons_self))
  rw [e, hord.texts, firsts_filter, List.filter_append]
  unfold wordsOf
  congr 1

/-- **C113**: `index` ends normally and prints the index of the words of the lexicons, variant lists and
error lists. -/
theorem index_prints_words {x : ToolExt} (hf : ∀ s, ';' ∈ s → x.parseF32 s = none)
    (hpos : StrictMono x.pos) (hmarks : MarksOk x.load.isSpace) (hb : x.load.isSpace '\\' = false)
    {c : CommandLine} (hc : Accepted c) (hsub : c.sub = .index)
    {as : List (List (List Char × Option Nat × VocabParams))} {w : Weights} {p : TextParams}
    (hfiles : UsableFiles x c as) (hnum : UsableNumbers x c w p)
    {afile : List Char} {alines : List (Option (List Char))} {alphabet : Alphabet}
    (ha : (.alphabet, afile) ∈ c.given) (hal : x.load.file afile = some alines)
    (hae : List.Forall₂ (AlphabetLine x.load.isSpace) (nonEmpty alines) alphabet) (files : List (List Char)) :
    ∃ lines s, IndexOf alphabet (wordsOf as) lines s ∧ x.main c files = .ok (.output s []) := by
  obtain ⟨s, hs⟩ := index_succeeds hf hpos hmarks hc hsub hfiles hnum files
  obtain ⟨_, L, hLF, hidx⟩ := index_run hpos hc hsub files s [] hs
  obtain ⟨args, L', hn, hload, hL, hLF', ha6, _⟩ := usable_loads hmarks hfiles
  cases loadedFor_unique hpos hc hLF hLF'
  obtain ⟨lines, ops, _, hl1, hl2, hne, hrun, _⟩ := loaded_history hL
  have halpha : L.vm.alphabet = alphabet := by
    have := hc.2 .alphabet (by decide) _ _ ha hn.alphabet
    rw [← this, hal] at hl1
    cases hl1
    obtain ⟨es, _, e2, e3⟩ := read_alphabet_entries hb [] alines
    rw [hl2, e2, List.nil_append, e3 alphabet hae]
  have hnolm : args.lm = [] := by
    rw [hn.lm, List.filterMap_eq_nil_iff]
    intro g hg
    rw [if_neg]
    intro e
    have := hc.1 g hg
    rw [e, hsub] at this
    exact absurd this (by decide)
  have hsz := hload.sources
  have htexts := indexed_texts hL (by omega) hload.words hnolm
  obtain ⟨keys, has, h1, h2, h3, h4⟩ := hidx (by omega)
  subst halpha
  have hwords : ∀ t, t ∈ wordsOf as ↔ ∃ v ∈ L.vm.decoder, v.vocabtype.check .INDEXED = true ∧ v.text = t := by
    intro t
    rw [← htexts]
    simp only [List.mem_map, List.mem_filter, and_assoc]
  refine ⟨keys.map fun k => (k, (L.vm.decoder.filter (has k)).map VocabValue.text), s, ⟨?_, ?_, ?_, ?_⟩, hs⟩
  · rw [h4, List.flatMap_map]
    simp only [List.flatMap_map]
  · rw [List.map_map]
    exact (List.map_id keys).symm ▸ h2
  · intro t ht
    obtain ⟨v, hv, hi, rfl⟩ := (hwords t).mp ht
    obtain ⟨codes, hcodes⟩ := encodes_exists hne L.vm.alphabet.length v.text
    have hk : has (bagValue codes) v = true := (h1 _ _).mpr ⟨hi, codes, hcodes, rfl⟩
    exact ⟨_, List.mem_map.mpr ⟨bagValue codes, (h3 _).mpr ⟨v, hv, hk⟩, rfl⟩,
      List.mem_map.mpr ⟨v, List.mem_filter.mpr ⟨hv, hk⟩, rfl⟩⟩
  · intro l hl
    obtain ⟨k, hk, rfl⟩ := List.mem_map.mp hl
    obtain ⟨v, hv, hkv⟩ := (h3 k).mp hk
    refine ⟨List.ne_nil_of_mem (List.mem_map.mpr ⟨v, List.mem_filter.mpr ⟨hv, hkv⟩, rfl⟩), ?_, ?_⟩
    · rw [← htexts]
      refine List.Sublist.map _ ?_
      refine List.monotone_filter_right _ fun v hv => ?_
      exact ((h1 k v).mp hv).1
    · intro t
      rw [hwords]
      simp only [List.mem_map, List.mem_filter]
      constructor
      · rintro ⟨v, ⟨hv, hkv⟩, rfl⟩
        obtain ⟨hi, hcodes⟩ := (h1 k v).mp hkv
        exact ⟨⟨v, hv, hi, rfl⟩, hcodes⟩
      · rintro ⟨⟨v, hv, hi, rfl⟩, hcodes⟩
        exact ⟨v, ⟨hv, (h1 k v).mpr ⟨hi, hcodes⟩⟩, rfl⟩

/-- **C113**: two words are on the same line of an index if and only if they are anagrams of each other, in
the symbols of the alphabet; and no word is on two lines. -/
theorem index_groups_anagrams {alphabet : Alphabet} (hlen : alphabet.length ≤ 167)
    {words : List (List Char)} {lines : List (Nat × List (List Char))} {s : List Char}
    (h : IndexOf alphabet words lines s) {t u : List Char} (ht : t ∈ words) (hu : u ∈ words) :
    (∃! l, l ∈ lines ∧ t ∈ l.2) ∧ ((∃ l ∈ lines, t ∈ l.2 ∧ u ∈ l.2) ↔
      ∃ codes codes', Encodes alphabet alphabet.length t codes ∧ Encodes alphabet alphabet.length u codes' ∧
        codes.Perm codes') := by
  obtain ⟨_, h2, h3, h4⟩ := h
  have within : ∀ {t codes}, Encodes alphabet alphabet.length t codes → Within 168 codes := by
    intro t codes hc i hi
    have := encodes_within hc i hi
    omega
  constructor
  · obtain ⟨l, hl, htl⟩ := h3 t ht
    refine ⟨l, ⟨hl, htl⟩, ?_⟩
    rintro l' ⟨hl', htl'⟩
    obtain ⟨_, c1, e1, f1⟩ := ((h4 l hl).2.2 t).mp htl
    obtain ⟨_, c2, e2, f2⟩ := ((h4 l' hl').2.2 t).mp htl'
    rw [encodes_unique e2 e1, f1] at f2
    exact List.inj_on_of_nodup_map h2 hl' hl f2.symm
  · constructor
    · rintro ⟨l, hl, htl, hul⟩
      obtain ⟨_, c1, e1, f1⟩ := ((h4 l hl).2.2 t).mp htl
      obtain ⟨_, c2, e2, f2⟩ := ((h4 l hl).2.2 u).mp hul
      exact ⟨c1, c2, e1, e2, (bagValue_inj (within e1) (within e2)).mp (f1.trans f2.symm)⟩
    · rintro ⟨c1, c2, e1, e2, hp⟩
      obtain ⟨l, hl, htl⟩ := h3 t ht
      obtain ⟨_, c3, e3, f3⟩ := ((h4 l hl).2.2 t).mp htl
      rw [encodes_unique e3 e1] at f3
      exact ⟨l, hl, htl, ((h4 l hl).2.2 u).mpr ⟨hu, c2, e2, by rw [← bagValue_perm hp, f3]⟩⟩

/-! ## Examples -/

/-- `index` with the options of `exQueryE` -/
def exIndexE : CommandLine := { exQueryE with sub := .index }

/-- The words of an error list, a lexicon and a variant list, each once. -/
example : wordsOf (exAdded.take 3) = ["b".toList, "bb".toList, "ab".toList, "ba".toList] := by
  decide +kernel

/-- Their index. -/
example : ∃ lines s, IndexOf [["a".toList, "A".toList], ["b".toList]] (wordsOf (exAdded.take 3)) lines s ∧
    exToolR.main exIndexE [] = .ok (.output s []) := by
  obtain ⟨entries, e1, e2, _⟩ := read_alphabet_entries (isSpace := exToolR.load.isSpace) rfl []
    [some "a\tA".toList, some ['b']]
  have he : entries = [["a".toList, "A".toList], ["b".toList]] := by
    rw [List.nil_append] at e2
    rw [← e2]
    decide
  rw [he] at e1
  exact index_prints_words (x := exToolR) (c := exIndexE) ex_noSemicolon ex_pos ex_marks rfl
    (accepted_of (by decide) (by decide)) rfl
    ⟨⟨{ exArgs with lm := [] }, by constructor <;> decide, exLoadableQuery⟩, by decide⟩
    (exUsableNumbers (accepted_of (by decide) (by decide)) rfl (by decide +kernel) rfl
      (exSome exTextParams (by decide +kernel)) (.inl (by decide +kernel)))
    (afile := ['a']) (by decide) rfl e1 []

/-- It is this. -/
example : exToolR.main exIndexE [] = .ok (.output "3\tb\n9\tbb\n6\tab\tba\n".toList []) := by
  decide +kernel

/-- In it, `ab` and `ba` are on one line. -/
example (lines : List (Nat × List (List Char))) (s : List Char)
    (h : IndexOf [["a".toList, "A".toList], ["b".toList]] (wordsOf (exAdded.take 3)) lines s) :
    ∃ l ∈ lines, "ab".toList ∈ l.2 ∧ "ba".toList ∈ l.2 := by
  have ha : ∀ rest codes, Encodes [["a".toList, "A".toList], ["b".toList]] 2 rest codes →
      Encodes [["a".toList, "A".toList], ["b".toList]] 2 ('a' :: rest) (0 :: codes) := fun rest codes hr =>
    .hit (e := ['a']) ⟨⟨[], [['A']], rfl, by simp⟩, ⟨rest, rfl⟩, by simp⟩ (by simp) hr
  have hb : ∀ rest codes, Encodes [["a".toList, "A".toList], ["b".toList]] 2 rest codes →
      Encodes [["a".toList, "A".toList], ["b".toList]] 2 ('b' :: rest) (1 :: codes) := by
    intro rest codes hr
    refine .hit (e := ['b']) ⟨⟨[], [], rfl, by simp⟩, ⟨rest, rfl⟩, ?_⟩ (by simp) hr
    intro j hj entry he x hx
    match j, hj with
    | 0, _ =>
      cases he
      simp only [List.mem_cons, List.not_mem_nil, or_false] at hx
      rcases hx with rfl | rfl <;> simp
  exact (index_groups_anagrams (by decide) h (by decide +kernel) (by decide +kernel)).2.mpr
    ⟨[0, 1], [1, 0], ha _ _ (hb _ _ .nil), hb _ _ (ha _ _ .nil), .swap _ _ _⟩

end Verif.Props
