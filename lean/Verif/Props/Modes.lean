import Verif.Spec.Modes
import Verif.Props.Bindings
import Verif.Props.DividedAll

/-!
# A search for single words as queries for each word (C127)
-/
namespace Verif.Props

open Verif.Spec Verif.Model Verif.Lemmas

theorem forall₂_imp_left {α β : Type} {R Q : α → β → Prop} {l : List α} {k : List β} (h : List.Forall₂ R l k)
    (hq : ∀ a ∈ l, ∀ b, R a b → Q a b) : List.Forall₂ Q l k := by
  induction h with
  | nil => exact .nil
  | cons h1 _ ih =>
    exact .cons (hq _ List.mem_cons_self _ h1) (ih fun a ha => hq a (List.mem_cons_of_mem _ ha))

theorem given_asQuery {c : CommandLine} {o : OptName} (ho : o ∈ commonOptions) :
    Given (asQuery c) o ↔ Given c o := by
  unfold Given asQuery
  simp [List.mem_filter, ho]

theorem mem_asQuery {c : CommandLine} {o : OptName} (ho : o ∈ commonOptions) {v : List Char} :
    (o, v) ∈ (asQuery c).given ↔ (o, v) ∈ c.given := by
  unfold asQuery
  simp [List.mem_filter, ho]

theorem inForce_asQuery {c : CommandLine} {o : OptName} (ho : o ∈ commonOptions) {d v : List Char} :
    InForce (asQuery c) o d v ↔ InForce c o d v := by
  unfold InForce
  rw [given_asQuery ho, mem_asQuery ho]

theorem accepted_asQuery {c : CommandLine} (hc : Accepted c) : Accepted (asQuery c) := by
  refine ⟨?_, ?_⟩
  · intro g hg
    have := (List.mem_filter.mp hg).2
    exact of_decide_eq_true this
  · intro o ho v w hv hw
    exact hc.2 o ho v w (List.mem_filter.mp hv).1 (List.mem_filter.mp hw).1

theorem filterMap_asQuery {α : Type} {c : CommandLine} {f : OptName × List Char → Option α}
    (hf : ∀ g, g.1 ∉ commonOptions → f g = none) :
    (asQuery c).given.filterMap f = c.given.filterMap f := by
  unfold asQuery
  rw [List.filterMap_filter]
  refine List.filterMap_congr fun g _ => ?_
  by_cases h : g.1 ∈ commonOptions
  · simp [h]
  · simp [h, hf g h]

theorem loaded_asQuery {x : ToolExt} {c : CommandLine} {L : Loaded} (hlm : ¬ Given c .lm)
    (h : LoadedFor x c L) (lines : List (List Char)) : LoadedFor (withLines x lines) (asQuery c) L := by
  obtain ⟨args, h1, h2, h3, h4, h5, h6⟩ := h
  refine ⟨args, (mem_asQuery (by decide)).mpr h1, ?_, ?_, ?_, ?_, h6⟩
  · rw [h2, filterMap_asQuery]
    rintro ⟨o, f⟩ h
    have h : o ∉ commonOptions := h
    cases o <;> first | rfl | exact absurd (by decide) h
  · have : ∀ d : CommandLine, ¬ Given d .lm →
        d.given.filterMap (fun g => if g.1 = .lm then some g.2 else none) = [] := by
      intro d hd
      rw [List.filterMap_eq_nil_iff]
      intro g hg
      rw [if_neg]
      intro e
      exact hd ⟨g.2, e ▸ hg⟩
    rw [h3, this c hlm, this]
    rintro ⟨v, hv⟩
    exact hlm ⟨v, (List.mem_filter.mp hv).1⟩
  · rw [h4, filterMap_asQuery]
    rintro ⟨o, f⟩ h
    rw [if_neg]
    rintro rfl
    exact h (show OptName.confusables ∈ commonOptions by decide)
  · rw [h5, filterMap_asQuery]
    rintro ⟨o, f⟩ h
    rw [if_neg]
    rintro rfl
    exact h (show OptName.contextrules ∈ commonOptions by decide)

/-- The query asks for the same resources, weights and parameters, but for those that are for texts only. -/
theorem asked_asQuery {x : ToolExt} {c : CommandLine} {L : Loaded} {w : Weights} {p : TextParams}
    (hlm : ¬ Given c .lm) (h : Asked x c L w p) (lines : List (List Char)) :
    ∃ p', Asked (withLines x lines) (asQuery c) L w p' ∧ p'.variant = p.variant := by
  obtain ⟨q, hq, hu, hn⟩ := h.params
  refine ⟨{ p with maxNgram := 1, maxSeq := 250, variantmodelWeight := 1, lmWeight := 1, contextrulesWeight := 1 },
    ⟨loaded_asQuery hlm h.loaded lines, ?_, ?_, h.cutoff, h.debug⟩, rfl⟩
  · obtain ⟨h1, h2, h3, h4, h5⟩ := h.weights
    refine ⟨?_, ?_, ?_, ?_, ?_⟩ <;> simp only [inForce_asQuery (show OptName.weightLd ∈ commonOptions by decide),
      inForce_asQuery (show OptName.weightLcs ∈ commonOptions by decide),
      inForce_asQuery (show OptName.weightPrefix ∈ commonOptions by decide),
      inForce_asQuery (show OptName.weightSuffix ∈ commonOptions by decide),
      inForce_asQuery (show OptName.weightCase ∈ commonOptions by decide)] <;> assumption
  · refine ⟨{ q with maxNgram := 1, maxSeq := 250, lmOrder := 1, lmWeight := .fin 1,
                      variantmodelWeight := .fin 1, contextrulesWeight := .fin 1, contextWeight := .fin 1,
                      consolidateMatches := true }, ?_, hu, ?_⟩
    · constructor
      · simpa only [withLines, inForce_asQuery (show OptName.maxAnagramDistance ∈ commonOptions by decide)] using hq.anagram
      · simpa only [withLines, inForce_asQuery (show OptName.maxEditDistance ∈ commonOptions by decide)] using hq.edit
      · simpa only [withLines, inForce_asQuery (show OptName.maxMatches ∈ commonOptions by decide)] using hq.matches'
      · simpa only [withLines, inForce_asQuery (show OptName.scoreThreshold ∈ commonOptions by decide)] using hq.score
      · simpa only [withLines, inForce_asQuery (show OptName.cutoffThreshold ∈ commonOptions by decide)] using hq.cutoff
      · simpa only [withLines, mem_asQuery (show OptName.freqRanking ∈ commonOptions by decide),
          given_asQuery (show OptName.freqRanking ∈ commonOptions by decide)] using hq.freq
      · simpa only [given_asQuery (show OptName.stopExact ∈ commonOptions by decide)] using hq.stop
      · simpa only [given_asQuery (show OptName.singleThread ∈ commonOptions by decide),
          given_asQuery (show OptName.interactive ∈ commonOptions by decide)] using hq.single
      · refine ⟨fun h => (Bool.noConfusion h), ?_⟩
        rintro ⟨v, hv⟩
        exact absurd (of_decide_eq_true (List.mem_filter.mp hv).2) (show OptName.allowOverlap ∉ commonOptions by decide)
      · rintro (h | h) <;> cases h
      · intro _
        exact ⟨rfl, rfl, rfl, rfl, rfl, rfl, rfl⟩
    · exact ⟨hn.anagram, hn.edit, hn.matches', hn.score, hn.cutoff, hn.stop, hn.freq, rfl, rfl, hn.single, rfl, rfl,
        rfl, hn.offsets⟩

/-- What a query for one line prints, in terms of the library. -/
theorem query_line {x : ToolExt} (hf : ∀ s, ';' ∈ s → x.parseF32 s = none) (hpos : StrictMono x.pos)
    {c : CommandLine} (hc : Accepted c) (hj : ¬ Given c .json) (hlm : ¬ Given c .lm)
    {L : Loaded} {w : Weights} {p : TextParams} (asked : Asked x c L w p) {t : List Char}
    {vs : List VariantResult} {cols : List (List Char)}
    (hv : L.vm.findVariants x.text.toExt (x.config c L w).toConfig p.variant t = .ok vs)
    (hcols : List.Forall₂ (VariantColumns x c L p) vs cols) : QueryPrints x (asQuery c) t cols := by
  obtain ⟨p', ask', hp'⟩ := asked_asQuery hlm asked [t]
  have hset : Settings (withLines x [t]) (asQuery c) L w (x.config c L w) := by
    have := (settings_iff (x := x) (c := c) (L := L) (w := w)).mpr rfl
    exact ⟨this.weights, this.confusables, by rw [given_asQuery (by decide)]; exact this.early, this.script,
      this.rules⟩
  refine (query_run (x := withLines x [t]) hf hpos (accepted_asQuery hc) rfl
    (by rw [given_asQuery (by decide)]; exact hj) [] _ _).mpr ⟨rfl, L, w, p', x.config c L w, [[some t]], ask', hset,
      .inl ⟨rfl, rfl⟩, by simp, [t ++ cols.flatten ++ ['\n']], ?_, by simp⟩
  refine .cons ⟨vs, by rw [hp']; exact hv, cols, ?_, rfl⟩ .nil
  refine hcols.imp ?_
  rintro v col ⟨e, h1, lex, h2, h3⟩
  refine ⟨e, h1, lex, ?_, by rw [hp']; exact h3⟩
  rw [given_asQuery (by decide)]
  exact h2

/-- What is loaded from lexicons and lists with a word, none of them reserved. -/
theorem loaded_plain {x : ToolExt} {c : CommandLine} {L : Loaded} (h : LoadedFor x c L)
    (hlm : ¬ Given c .lm) (hrules : ¬ Given c .contextrules)
    (hcount : (sourcesGiven c).length ≤ 256)
    {as : List (List (List Char × Option Nat × VocabParams))} (has : AddsAll x.load 0 (sourcesGiven c) as)
    (hwords : as.flatten ≠ []) (hr : ∀ a ∈ as.flatten, ¬ Reserved a.1) :
    L.vm.haveLm = false ∧ L.book.rules = [] ∧ L.vm.index.isEmpty = false := by
  have hn0 : ∀ {o}, ¬ Given c o →
      (c.given.filterMap fun g => if g.1 = o then some g.2 else none) = [] := by
    intro o ho
    rw [List.filterMap_eq_nil_iff]
    intro g hg
    rw [if_neg]
    intro e
    exact ho ⟨g.2, e ▸ hg⟩
  obtain ⟨args, h1, h2, h3, h4, h5, hL⟩ := h
  have hss : sourcesGiven c = args.resources.map sourceOf := by
    unfold sourcesGiven
    rw [hn0 hlm, List.map_nil, List.append_nil, h2]
  have hsrc : sourcesOf args = sourcesGiven c := by
    unfold sourcesOf
    rw [h3, hn0 hlm, hss, List.map_nil, List.append_nil]
  refine ⟨noLm_loaded hL (by rw [h3, hn0 hlm]) (hsrc ▸ has) hr, ?_, ?_⟩
  · have h0 : args.contextrules = [] := by rw [h5]; exact hn0 hrules
    unfold LoadExt.load at hL
    obtain ⟨_, _, h⟩ := bind_ok.mp hL
    obtain ⟨_, _, h⟩ := bind_ok.mp h
    obtain ⟨_, _, h⟩ := bind_ok.mp h
    obtain ⟨_, _, h⟩ := bind_ok.mp h
    obtain ⟨bk, h4, h⟩ := bind_ok.mp h
    obtain ⟨_, _, h⟩ := bind_ok.mp h
    cases pure_ok.mp h
    rw [h0] at h4
    cases h4
    rfl
  · obtain ⟨a, ha⟩ := List.exists_mem_of_ne_nil _ hwords
    have hadds : ∃ b bs, addsOf a.1 as.flatten = b :: bs := by
      cases e : addsOf a.1 as.flatten with
      | nil =>
        have : a.2 ∈ addsOf a.1 as.flatten :=
          List.mem_map.mpr ⟨a, List.mem_filter.mpr ⟨ha, by simp⟩, rfl⟩
        rw [e] at this
        cases this
      | cons b bs => exact ⟨b, bs, rfl⟩
    obtain ⟨b, bs, hb⟩ := hadds
    obtain ⟨id, v, hat, _, _, _, hi, _⟩ :=
      (loaded_entry hL (hsrc ▸ hcount) (hsrc ▸ has) a.1 (hr a ha)).2 b bs hb
    have hbi : b.2.vocabType.indexed = true := by
      have : b ∈ addsOf a.1 as.flatten := by rw [hb]; exact List.mem_cons_self
      obtain ⟨y, hy, rfl⟩ := List.mem_map.mp this
      exact addsAll_indexed (hss ▸ has) y (List.mem_filter.mp hy).1
    obtain ⟨_, ops, _, _, _, _, hrun, _⟩ := loaded_history hL
    obtain ⟨k, node, _, hk⟩ := (built_of_run hrun).complete id v hat.2.1 (by rw [hi]; exact hbi)
    rw [← Bool.not_eq_true]
    intro he
    rw [List.isEmpty_iff.mp he] at hk
    cases hk

/-- **C127**: without language models and context rules (and without reserved words in the lists), a search for
single words prints for each word of the text, in order, the word, its offsets, and exactly the columns that a
query with the same options prints for the word as its only input. -/
theorem search_as_queries {x : ToolExt} (hf : ∀ s, ';' ∈ s → x.parseF32 s = none)
    (hpos : StrictMono x.pos) (hsp : x.text.isAlpha ' ' = false)
    {c : CommandLine} (hc : Accepted c) (hsub : c.sub = .search)
    (hplain : ∀ o ∈ [OptName.json, .lm, .contextrules], ¬ Given c o)
    (hn : InForce c .maxNgramOrder "3".toList "1".toList)
    (hcount : (sourcesGiven c).length ≤ 256)
    {as : List (List (List Char × Option Nat × VocabParams))} (has : AddsAll x.load 0 (sourcesGiven c) as)
    (hwords : as.flatten ≠ []) (hr : ∀ a ∈ as.flatten, ¬ Reserved a.1)
    {files : List (List Char)} {s : List Char} {ws : List (List FileWrite)}
    (h : x.main c files = .ok (.output s ws)) :
    ws = [] ∧ ∃ inputs texts, InputsOf x files inputs ∧
      List.Forall₂ (WordsText x c (QueryPrints x (asQuery c))) inputs texts ∧ s = texts.flatten := by
  have hj : ¬ Given c .json := hplain _ (by simp)
  have hlm : ¬ Given c .lm := hplain _ (by simp)
  obtain ⟨hws, L, w, p, cfg, inputs, texts, asked, hset, hin, ht, rfl⟩ :=
    (search_run hf hpos hc hsub hj files s ws).mp h
  cases settings_iff.mp hset
  obtain ⟨k1, k2, k3⟩ := loaded_plain asked.loaded hlm (hplain _ (by simp)) hcount has hwords hr
  obtain ⟨q, hq, hu, hnum⟩ := asked.params
  have hone : p.maxNgram = 1 := by
    obtain ⟨v, hv, hv'⟩ := (hq.text (.inl hsub)).ngram
    have : v = "1".toList := by
      rcases hv with hv | ⟨hv, rfl⟩
      · rcases hn with hn | ⟨hn, _⟩
        · exact hc.2 _ (by decide) _ _ hv hn
        · exact absurd ⟨_, hv⟩ hn
      · rcases hn with hn | ⟨_, hn⟩
        · exact absurd ⟨_, hn⟩ hv
        · exact absurd hn (by decide)
    subst this
    rw [hnum.ngram]
    exact numberText_unique hv' ⟨[1], by decide, by decide, .inl rfl, by decide, by decide⟩
  refine ⟨hws, inputs, texts, hin, ht.imp ?_, rfl⟩
  rintro lines text ⟨perLine, sep, gs, found, rows, g1, g2, g3, g4, g5, g6⟩
  have group : ∀ g ms, L.vm.findAllMatches x.text (x.config c L w) p ([sep].intercalate g) = .ok ms →
      WordsOf x.text.isAlpha ([sep].intercalate g) (ms.map fun m => (m.first, m.text)) ∧
      ∀ m ∈ ms, m.last = m.first + byteLen m.text ∧ m.selected = some 0 ∧ ∃ vs, m.variants = some vs ∧
        L.vm.findVariants x.text.toExt (x.config c L w).toConfig p.variant m.text = .ok vs := by
    intro g ms hms
    obtain ⟨segs, hs, _⟩ := findBoundaries_eq x.text.isAlpha ([sep].intercalate g)
    obtain ⟨hws, hlast⟩ := words_of_text hs
    by_cases ht : [sep].intercalate g = []
    · have e : ms = [] := by
        unfold Vm.findAllMatches at hms
        rw [if_pos ht] at hms
        exact (Except.ok.inj hms).symm
      subst e
      refine ⟨⟨.nil, ?_⟩, by simp⟩
      rintro b t
      constructor
      · intro h
        cases h
      · rintro ⟨pre, post, e, _, hne, _⟩
        rw [ht] at e
        have := List.append_eq_nil_iff.mp e.symm
        exact absurd (List.append_eq_nil_iff.mp this.1).2 hne
    · rw [unigram_search hsp hone k1 k2 (by rw [hnum.offsets, hu]) ht k3 hs] at hms
      refine ⟨?_, ?_⟩
      · have : ms.map (fun m => (m.first, m.text)) = (runsFrom 1 0 segs).map fun m => (m.first, m.text) := by
          symm
          rw [← List.forall₂_eq_eq_eq, List.forall₂_map_left_iff, List.forall₂_map_right_iff]
          refine hms.imp ?_
          rintro word m ⟨v, _, rfl⟩
          rfl
        rw [this]
        exact hws
      · intro m hm
        obtain ⟨word, hw, v, hv, rfl⟩ := mem_of_forall₂_right hms hm
        exact ⟨hlast word hw, rfl, v, rfl, hv⟩
  refine ⟨perLine, sep, gs, found.map fun ms => ms.map fun m => (m.first, m.text), rows, g1, g2, g3, ?_, ?_, g6⟩
  · rw [List.forall₂_map_right_iff]
    exact g4.imp fun g ms hms => (group g ms hms).1
  · rw [List.forall₂_map_left_iff]
    refine forall₂_imp_left g5 ?_
    intro ms hms rs hrs
    rw [List.forall₂_map_left_iff]
    obtain ⟨g, _, hg⟩ := mem_of_forall₂_right g4 hms
    refine forall₂_imp_left hrs ?_
    rintro m hm row ⟨cols, hl, rfl⟩
    obtain ⟨e1, e2, vs, e3, e4⟩ := (group g ms hg).2 m hm
    rw [e3] at hl
    obtain ⟨l, hl, hcols⟩ := hl
    have : l = vs := by
      rw [e2] at hl
      rcases hl with ⟨i, r, hi, hr, rfl⟩ | ⟨_, rfl⟩
      · cases hi
        cases vs with
        | nil => cases hr
        | cons v vs => cases hr; rfl
      · rfl
    subst this
    exact ⟨cols, query_line hf hpos hc hj hlm asked e4 hcols, by rw [e1]⟩

theorem asked_withLines {x : ToolExt} {c : CommandLine} {L : Loaded} {w : Weights} {p : TextParams}
    (h : Asked x c L w p) (lines : List (List Char)) : Asked (withLines x lines) c L w p :=
  ⟨h.loaded, h.weights, h.params, h.cutoff, h.debug⟩

/-- **C127**: a query for several lines prints what queries for the lines one by one print. -/
theorem query_by_lines {x : ToolExt} (hf : ∀ s, ';' ∈ s → x.parseF32 s = none) (hpos : StrictMono x.pos)
    {c : CommandLine} (hc : Accepted c) (hsub : c.sub = .query) (hj : ¬ Given c .json)
    {files : List (List Char)} {s : List Char} {ws : List (List FileWrite)}
    (h : x.main c files = .ok (.output s ws)) :
    ws = [] ∧ ∃ inputs rows, InputsOf x files inputs ∧
      List.Forall₂ (fun l row => Prints x c [l] row) (inputs.flatMap readable) rows ∧ s = rows.flatten := by
  obtain ⟨hws, L, w, p, cfg, inputs, asked, hset, hin, _, rows, hrows, rfl⟩ :=
    (query_run hf hpos hc hsub hj files s ws).mp h
  refine ⟨hws, inputs, rows, hin, hrows.imp ?_, rfl⟩
  rintro l row ⟨vs, h1, cols, h2, h3⟩
  refine (query_run (x := withLines x [l]) hf hpos hc hsub hj [] _ _).mpr ⟨rfl, L, w, p, cfg, [[some l]],
    asked_withLines asked _, ⟨hset.weights, hset.confusables, hset.early, hset.script, hset.rules⟩,
    .inl ⟨rfl, rfl⟩, by simp, [row], .cons ⟨vs, h1, cols, h2.imp fun v col h => h, h3⟩ .nil, by simp⟩

theorem untilError_some (g : List (List Char)) : untilError (g.map some) = g := by
  unfold untilError
  induction g with
  | nil => rfl
  | cons l g ih =>
    have : (l :: g).map some = some l :: g.map some := rfl
    rw [this, List.takeWhile_cons_of_pos rfl]
    exact congrArg (l :: ·) ih

/-- A group of lines alone is a group, possibly before an empty one. -/
theorem groups_alone {perLine : Bool} {ls : List (List Char)} {gs : List (List (List Char))}
    (h : Groups perLine ls gs) : ∀ g ∈ gs, Groups perLine g [g] ∨ Groups perLine g [g, []] := by
  induction h with
  | last h1 h2 h3 =>
    intro g hg
    cases List.mem_singleton.mp hg
    exact .inl (.last h1 h2 h3)
  | full h1 h2 h3 h4 _ ih =>
    intro g hg
    rcases List.mem_cons.mp hg with rfl | hg
    · exact .inr (.full h1 h2 h3 h4 (.last (by decide) (by simp) (fun _ => rfl)))
    · exact ih g hg

/-- **C127**: a search, with whatever options, prints for an input what searches for the groups of its lines
one by one print, with an empty line in between: what is found in a group does not depend on the others. -/
theorem search_by_groups {x : ToolExt} (hf : ∀ s, ';' ∈ s → x.parseF32 s = none) (hpos : StrictMono x.pos)
    {c : CommandLine} (hc : Accepted c) (hsub : c.sub = .search) (hj : ¬ Given c .json)
    {files : List (List Char)} {s : List Char} {ws : List (List FileWrite)}
    (h : x.main c files = .ok (.output s ws)) :
    ws = [] ∧ ∃ inputs texts, InputsOf x files inputs ∧
      List.Forall₂ (GroupsText x c) inputs texts ∧ s = texts.flatten := by
  obtain ⟨hws, L, w, p, cfg, inputs, texts, asked, hset, hin, ht, rfl⟩ :=
    (search_run hf hpos hc hsub hj files s ws).mp h
  refine ⟨hws, inputs, texts, hin, ht.imp ?_, rfl⟩
  rintro lines text ⟨perLine, sep, gs, found, rows, g1, g2, g3, g4, g5, g6⟩
  have hempty : L.vm.findAllMatches x.text cfg p [] = .ok [] := by
    unfold Vm.findAllMatches
    rw [if_pos rfl]
  have alone : ∀ g ms rs, Groups perLine g [g] ∨ Groups perLine g [g, []] →
      L.vm.findAllMatches x.text cfg p ([sep].intercalate g) = .ok ms →
      List.Forall₂ (MatchRow x c L p) ms rs → Prints x c g rs.flatten := by
    intro g ms rs hg hms hrs
    refine (search_run (x := withLines x g) hf hpos hc hsub hj [] _ _).mpr ⟨rfl, L, w, p, cfg, [g.map some],
      [rs.flatten], asked_withLines asked _,
      ⟨hset.weights, hset.confusables, hset.early, hset.script, hset.rules⟩, .inl ⟨rfl, rfl⟩, ?_, by simp⟩
    have hrs' : List.Forall₂ (MatchRow (withLines x g) c L p) ms rs := hrs.imp fun _ _ h => h
    have one : ∀ e : List (List (List Char)), (∀ r ∈ e, r = []) →
        rs.flatten = ['\n'].intercalate (((rs :: e).filter fun r => r ≠ []).map List.flatten) := by
      intro e he
      have : e.filter (fun r => r ≠ []) = [] := by
        rw [List.filter_eq_nil_iff]
        intro r hr
        simp [he r hr]
      rw [List.filter_cons, this]
      by_cases hr : rs = []
      · simp [hr, List.intercalate]
      · simp [hr, List.intercalate]
    refine .cons ?_ .nil
    rcases hg with hg | hg
    · exact ⟨perLine, sep, [g], [ms], [rs], g1, g2, by rw [untilError_some]; exact hg, .cons hms .nil,
        .cons hrs' .nil, one [] (by simp)⟩
    · exact ⟨perLine, sep, [g, []], [ms, []], [rs, []], g1, g2, by rw [untilError_some]; exact hg,
        .cons hms (.cons hempty .nil), .cons hrs' (.cons .nil .nil), one [[]] (by simp)⟩
  refine ⟨perLine, gs, rows.map List.flatten, g1, g3, ?_, ?_⟩
  · rw [List.forall₂_map_right_iff]
    have hg := groups_alone g3
    clear g3 g6
    induction g4 generalizing rows with
    | nil => cases g5; exact .nil
    | cons h1 _ ih =>
      cases g5 with
      | cons r1 r2 =>
        exact .cons (alone _ _ _ (hg _ List.mem_cons_self) h1 r1)
          (ih _ r2 fun g hg' => hg g (List.mem_cons_of_mem _ hg'))
  · rw [g6]
    congr 1
    rw [List.filter_map]
    congr 1
    refine List.filter_congr fun r hr => ?_
    obtain ⟨ms, _, hms⟩ := mem_of_forall₂_right g5 hr
    cases hms with
    | nil => simp
    | cons h1 _ =>
      obtain ⟨cols, _, rfl⟩ := h1
      simp

/-! ### Examples -/

/-- What a query prints for the words of the example text. -/
example : QueryPrints (exToolT exLex6 exText2) (asQuery exSearchW) "ba".toList
    ["\tba\t1\t".toList, "\ta\t0.5\t".toList, "\tab\t0.5\t".toList] ∧
    QueryPrints (exToolT exLex6 exText2) (asQuery exSearchW) "b".toList [] := by
  unfold QueryPrints
  constructor <;> decide +kernel

theorem exAddsW : AddsAll (exToolT exLex6 exText2).load 0 (sourcesGiven exSearchW)
    [[("ab".toList, some 7, {}), ("ba".toList, some 16, {}), (['a'], some 1, {})]] :=
  .cons (Adds.lexicon (es := [("ab".toList, 7), ("ba".toList, 16), (['a'], 1)]) rfl
    (.cons (exVocab (f := ['7']) (by decide) (by decide))
      (.cons (exVocab (f := "16".toList) (by decide) (by decide))
        (.cons (exVocab (f := ['1']) (by decide) (by decide)) .nil)))) .nil

example : ∃ s, (exToolT exLex6 exText2).main exSearchW [['t']] = .ok (.output s []) ∧ ∃ inputs texts,
    InputsOf (exToolT exLex6 exText2) [['t']] inputs ∧ List.Forall₂ (WordsText (exToolT exLex6 exText2) exSearchW
      (QueryPrints (exToolT exLex6 exText2) (asQuery exSearchW))) inputs texts ∧ s = texts.flatten := by
  have h : (exToolT exLex6 exText2).main exSearchW [['t']] = .ok (.output
      ("ab\t0:2\tab\t1\t\ta\t0.5\t\tba\t0.5\t\nx\t4:5\nba\t6:8\tba\t1\t\ta\t0.5\t\tab\t0.5\t\n".toList ++
        "b\t10:11\n\naab\t1:4\tab\t0.5\t\na\t5:6\ta\t1\t\n".toList) []) := by decide +kernel
  refine ⟨_, h, (search_as_queries (x := exToolT exLex6 exText2) ex_noSemicolon ex_pos rfl
    (accepted_of (by decide) (by decide)) rfl ?_ (.inl (by decide)) (by decide) exAddsW (by decide) (by decide) h).2⟩
  have : ∀ o ∈ [OptName.json, .lm, .contextrules], ∀ g ∈ exSearchW.given, g.1 ≠ o := by decide
  exact fun o ho => not_given (this o ho)

/-- The two groups of the text, one by one. -/
example : Prints (exToolT exLex6 exText2) exSearchW ["ab, x-ba.".toList, "b".toList, []]
      "ab\t0:2\tab\t1\t\ta\t0.5\t\tba\t0.5\t\nx\t4:5\nba\t6:8\tba\t1\t\ta\t0.5\t\tab\t0.5\t\nb\t10:11\n".toList ∧
    Prints (exToolT exLex6 exText2) exSearchW [" aab a".toList] "aab\t1:4\tab\t0.5\t\na\t5:6\ta\t1\t\n".toList := by
  unfold Prints
  constructor <;> decide +kernel

example : ∃ s, exToolR.main exSearchB [] = .ok (.output s []) ∧ ∃ inputs texts, InputsOf exToolR [] inputs ∧
    List.Forall₂ (GroupsText exToolR exSearchB) inputs texts ∧ s = texts.flatten := by
  have h : ∃ s, exToolR.main exSearchB [] = .ok (.output s []) := by
    refine ⟨"ab\t0:2\tab\t1\t\t\"l;v;m\"\nb\t3:4\tb\t1\t\t\"e;l\"\nbb\t5:7\tb\t0.5\t\t\"e;l\"\n".toList, ?_⟩
    decide +kernel
  obtain ⟨s, h⟩ := h
  exact ⟨s, h, (search_by_groups (x := exToolR) ex_noSemicolon ex_pos (accepted_of (by decide) (by decide)) rfl
    (not_given (by decide)) h).2⟩

example : exToolB.main exQuery [] = .ok (.output "abbaaa\n".toList []) ∧
    ∃ inputs rows, InputsOf exToolB [] inputs ∧
      List.Forall₂ (fun l row => Prints exToolB exQuery [l] row) (inputs.flatMap readable) rows ∧
      "abbaaa\n".toList = rows.flatten :=
  ⟨defaults_differ.1, (query_by_lines (x := exToolB) ex_noSemicolon ex_pos (accepted_of (by decide) (by decide)) rfl
    (not_given (by decide)) defaults_differ.1).2⟩

end Verif.Props
