import Verif.Spec.Rows
import Verif.Props.SimilarText
import Verif.Props.Options

/-!
# The rows of a search are stretches of whole words (C96)
-/
namespace Verif.Props

open Verif.Spec Verif.Model Verif.Lemmas

/-! ## Matches as stretches of words -/

/-- Within a batch, only the separator before its first word may be longer than a byte. -/
theorem batches_seps (rest : List Seg) : ∀ cur : List Seg,
    (∀ p ∈ cur, byteLen p.2 ≤ 1 ∨ p.1 = []) →
    ∀ g ∈ batches cur rest, ∀ p ∈ g.dropLast, byteLen p.2 ≤ 1 ∨ p.1 = [] := by
  induction rest with
  | nil => intro cur _ g hg; cases hg
  | cons q rest ih =>
    intro cur hcur g hg
    obtain ⟨w, s⟩ := q
    rw [batches] at hg
    split at hg
    · rcases List.mem_cons.mp hg with rfl | hg
      · rw [List.dropLast_concat]; exact hcur
      · exact ih [] (by simp) g hg
    · next hc =>
      refine ih _ ?_ g hg
      intro p hp
      rcases List.mem_append.mp hp with hp | hp
      · exact hcur p hp
      · cases List.mem_singleton.mp hp
        by_contra hcon
        rw [not_or] at hcon
        exact hc ⟨.inr (by simpa using hcon.1), .inr hcon.2⟩

/-- The words that a match consists of. -/
structure MatchSegs (n : Nat) (pre : List Char) (segs : List Seg) (m : Match) : Prop where
  segs : ∃ a r b, segs = a ++ r ++ b ∧ r.length ≤ n ∧ stretch r ≠ [] ∧
    (∀ p ∈ r.dropLast, byteLen p.2 ≤ 1 ∨ p.1 = []) ∧
    m.text = stretch r ∧ m.first = byteLen (pre ++ flat a) ∧ m.n = r.length

theorem span_segs {pre : List Char} {g : List Seg} {s e n : Nat} {m : Match}
    (h : Span (byteLen pre) g s e m) (hn : m.n ≤ n)
    (hsep : ∀ p ∈ g.dropLast, byteLen p.2 ≤ 1 ∨ p.1 = []) : MatchSegs n pre g m := by
  have h1 := h.lt
  have h2 := h.le
  have hne : (g.take e).drop s ≠ [] := by
    intro h0
    have := congrArg List.length h0
    simp at this; omega
  have hlen : m.n = ((g.take e).drop s).length := by
    rw [List.length_drop, List.length_take, Nat.min_eq_left h2, ← h.n]
  refine ⟨g.take s, (g.take e).drop s, g.drop e, ?_, ?_, ?_, ?_, h.text, ?_, hlen⟩
  · conv_lhs => rw [← List.take_append_drop e g, ← List.take_append_drop s (g.take e), List.take_take,
      Nat.min_eq_left (by omega)]
  · exact hlen ▸ hn
  · rw [← h.text]
    exact (h.faithful (post := [])).2
  · intro p hp
    refine hsep p ?_
    obtain ⟨q, l, hl⟩ : ∃ q l, (g.take e).drop s = l ++ [q] := by
      obtain ⟨l, q, hl⟩ := List.eq_nil_or_concat _ |>.resolve_left hne
      exact ⟨q, l, by rw [hl, List.concat_eq_append]⟩
    rw [hl, List.dropLast_concat] at hp
    have : g = g.take s ++ (l ++ [q]) ++ g.drop e := by
      conv_lhs => rw [← List.take_append_drop e g, ← List.take_append_drop s (g.take e), List.take_take,
        Nat.min_eq_left (by omega : s ≤ e), hl]
    rw [this]
    have e2 : g.take s ++ (l ++ [q]) ++ g.drop e = g.take s ++ l ++ ([q] ++ g.drop e) := by simp
    rw [e2, List.dropLast_append_of_ne_nil (by simp)]
    simp [hp]
  · rw [h.first, byteLen_append]

theorem batchesRun_segs {vm : Vm} {x : TextExt} {cfg : TextConfig} {p : TextParams}
    (hsp : x.isAlpha ' ' = false) (hsolve : SolverOk x.solve) (gs : List (List Seg)) :
    ∀ (pre post : List Char) (ms : List Match), (∀ g ∈ gs, IsBatch x.isAlpha g) →
      (∀ g ∈ gs, ∀ p ∈ g.dropLast, byteLen p.2 ≤ 1 ∨ p.1 = []) →
      Vm.batchesRun vm x cfg p (pre ++ flat gs.flatten ++ post) (byteLen pre) gs = .ok ms →
      ∀ m ∈ ms, MatchSegs p.maxNgram pre gs.flatten m ∧ ∃ v, m.variants = some v ∧ (m.n ≠ 1 → v ≠ []) := by
  induction gs with
  | nil =>
    intro pre post ms _ _ h
    simp only [Vm.batchesRun, Except.ok.injEq] at h
    subst h
    simp
  | cons g gs ih =>
    intro pre post ms hb hsep h m hm
    have ht : pre ++ flat (g :: gs).flatten ++ post = pre ++ flat g ++ (flat gs.flatten ++ post) := by
      simp [flat_append]
    have ht' : pre ++ flat (g :: gs).flatten ++ post = (pre ++ flat g) ++ flat gs.flatten ++ post := by
      simp [flat_append]
    rw [Vm.batchesRun] at h
    obtain ⟨r, h1, h⟩ := bind_ok.mp h
    obtain ⟨rest, h2, h⟩ := bind_ok.mp h
    have h := pure_ok.mp h
    subst h
    rw [ht] at h1
    have b := batchMatches_ok hsp hsolve (hb g (by simp)) h1
    rw [ht', ← byteLen_append] at h2
    rw [List.flatten_cons]
    rcases List.mem_append.mp hm with hm | hm
    · obtain ⟨s, e, hs⟩ := b.spans m hm
      obtain ⟨a, r, b', e1, e2⟩ := span_segs hs (b.order m hm) (hsep g (by simp))
      exact ⟨⟨a, r, b' ++ gs.flatten, by rw [e1]; simp, e2⟩, b.known m hm⟩
    · obtain ⟨⟨a, r, b', e1, e2, e3, e4, e5, e6, e7⟩, e8⟩ := ih _ _ _ (fun g' h => hb g' (by simp [h]))
        (fun g' h => hsep g' (by simp [h])) h2 m hm
      exact ⟨⟨g ++ a, r, b', by rw [e1]; simp, e2, e3, e4, e5, by
        rw [e6, flat_append, List.append_assoc], e7⟩, e8⟩

/-- A stretch of words of a text. -/
theorem stretch_of_segs {isAlpha : Char → Bool} {text : List Char} {segs : List Seg} {n : Nat}
    (hs : Segmented isAlpha text segs) {a r b : List Seg} (h : segs = a ++ r ++ b) (hn : r.length ≤ n)
    (hne : stretch r ≠ []) (hsep : ∀ p ∈ r.dropLast, byteLen p.2 ≤ 1 ∨ p.1 = []) :
    StretchAt isAlpha n text (byteLen (flat a)) (stretch r) := by
  subst h
  have hr : r ≠ [] := by rintro rfl; exact hne rfl
  obtain ⟨r0, w, s, rfl⟩ : ∃ r0 w s, r = r0 ++ [(w, s)] := by
    obtain ⟨l, q, hl⟩ := List.eq_nil_or_concat _ |>.resolve_left hr
    exact ⟨l, q.1, q.2, by rw [hl, List.concat_eq_append]⟩
  rw [List.dropLast_concat] at hsep
  have est : stretch (r0 ++ [(w, s)]) = flat r0 ++ w := stretch_append _ _ (by simp)
  have hw : w ≠ [] := by
    cases hc : a ++ r0 with
    | nil =>
      obtain ⟨rfl, rfl⟩ := List.append_eq_nil_iff.mp hc
      simpa [stretch] using hne
    | cons q l =>
      refine hs.words_ne (w, s) ?_
      rw [← List.append_assoc, hc]
      simp
  have hsr := segmented_infix hs hr
  -- the words and separators of the stretch
  have hst : Segmented isAlpha (stretch (r0 ++ [(w, s)])) (r0 ++ [(w, [])]) := by
    refine ⟨by simp, ?_, ?_, ?_, ?_, ?_⟩
    · rw [est, flat_append]; simp [flat]
    · intro p hp
      rcases List.mem_append.mp hp with hp | hp
      · exact hsr.words p (by simp [hp])
      · cases List.mem_singleton.mp hp
        exact hsr.words (w, s) (by simp)
    · intro p hp
      rcases List.mem_append.mp hp with hp | hp
      · exact hsr.seps p (by simp [hp])
      · cases List.mem_singleton.mp hp
        simp
    · intro p hp
      cases r0 with
      | nil => simp at hp
      | cons q r0 =>
        rw [List.cons_append, List.tail_cons] at hp
        rcases List.mem_append.mp hp with hp | hp
        · exact hsr.words_ne p (by simp [hp])
        · cases List.mem_singleton.mp hp
          exact hw
    · rw [List.dropLast_concat]
      intro p hp
      exact hsr.seps_ne p (by rw [List.dropLast_concat]; exact hp)
  refine ⟨⟨flat a, s ++ flat b, ?_, rfl, ?_, ?_⟩, ?_, ?_, ?_, ?_⟩
  · rw [← hs.text_eq, est, flat_append, flat_append, flat_append]
    simp [flat]
  · intro c hc
    obtain ⟨a', ⟨w', s'⟩, ha⟩ : ∃ a' q, a = a' ++ [q] := by
      rcases List.eq_nil_or_concat a with rfl | ⟨a', q, e⟩
      · simp [flat] at hc
      · exact ⟨a', q, by rw [e, List.concat_eq_append]⟩
    subst ha
    have hs' : s' ≠ [] := hs.seps_ne (w', s') (by
      have e : a' ++ [(w', s')] ++ (r0 ++ [(w, s)]) ++ b = (a' ++ [(w', s')]) ++ (r0 ++ [(w, s)] ++ b) := by simp
      rw [e, List.dropLast_append_of_ne_nil (by simp)]
      simp)
    rw [flat_append, flat, flat, List.append_nil, ← List.append_assoc, List.getLast?_append_of_ne_nil _ hs'] at hc
    exact hs.seps (w', s') (by simp) c (List.mem_of_getLast? hc)
  · intro c hc
    cases s with
    | cons d s =>
      cases hc
      exact hs.seps (w, c :: s) (by simp) c (by simp)
    | nil =>
      cases b with
      | nil => cases hc
      | cons q b =>
        refine absurd rfl (hs.seps_ne (w, []) ?_)
        rw [List.dropLast_append_of_ne_nil (by simp)]
        simp
  · cases a with
    | nil => left; rfl
    | cons q a =>
      right
      have : ∀ p ∈ r0 ++ [(w, s)], p.1 ≠ [] := by
        intro p hp
        refine hs.words_ne p ?_
        rw [List.cons_append, List.cons_append, List.tail_cons]
        exact List.mem_append_left _ (List.mem_append_right _ hp)
      rw [est]
      cases r0 with
      | nil =>
        obtain ⟨c, w', rfl⟩ := List.exists_cons_of_ne_nil hw
        exact ⟨c, rfl, hsr.words (c :: w', s) (by simp) c (by simp)⟩
      | cons q' r0 =>
        obtain ⟨w1, s1⟩ := q'
        obtain ⟨c, w', hc⟩ := List.exists_cons_of_ne_nil (this (w1, s1) (by simp))
        have hc : w1 = c :: w' := hc
        subst hc
        exact ⟨c, rfl, hsr.words (c :: w', s1) (by simp) c (by simp)⟩
  · rw [est]
    refine ⟨w.getLast hw, ?_, hsr.words (w, s) (by simp) _ (List.getLast_mem hw)⟩
    rw [List.getLast?_append_of_ne_nil _ hw]
    exact List.getLast?_eq_some_getLast hw
  · refine ⟨_, (words_of_text hst).1, ?_, ?_⟩
    · rw [List.length_map]
      have := run_mem (n := 1) (o := 0) (a := r0) (r := [(w, [])]) (b := []) rfl hw
      rw [List.append_nil] at this
      exact List.length_pos_of_mem this
    · rw [List.length_map]
      have : ∀ (l : List Seg) (o : Nat), (runsFrom 1 o l).length ≤ l.length := by
        intro l
        induction l with
        | nil => intro o; exact Nat.le_refl _
        | cons p l ih =>
          intro o
          rw [runsFrom, List.length_append, List.length_cons]
          have := ih (o + byteLen (p.1 ++ p.2))
          split
          · simp only [List.length_singleton]; omega
          · simp only [List.length_nil]; omega
      refine Nat.le_trans (this _ _) ?_
      simpa using hn
  · rintro u sp v e ⟨cu, hu, hua⟩ ⟨cv, hv, hva⟩ hspa
    by_cases hsp0 : sp = []
    · subst hsp0; exact Nat.zero_le _
    have hu0 : u ≠ [] := by rintro rfl; cases hu
    have hv0 : v ≠ [] := by rintro rfl; cases hv
    obtain ⟨su, hsu, _⟩ := findBoundaries_eq isAlpha u
    obtain ⟨sv, hsv, _⟩ := findBoundaries_eq isAlpha v
    obtain ⟨su0, wu, s1, rfl⟩ : ∃ r0 w s, su = r0 ++ [(w, s)] := by
      obtain ⟨l, q, hl⟩ := List.eq_nil_or_concat _ |>.resolve_left hsu.ne
      exact ⟨l, q.1, q.2, by rw [hl, List.concat_eq_append]⟩
    have hu1 := hsu.text_eq
    rw [flat_append, flat, flat, List.append_nil] at hu1
    have hs1 : s1 = [] := by
      by_contra hs1
      rw [← hu1, ← List.append_assoc, List.getLast?_append_of_ne_nil _ hs1] at hu
      rw [hsu.seps (wu, s1) (by simp) cu (List.mem_of_getLast? hu)] at hua
      cases hua
    subst hs1
    rw [List.append_nil] at hu1
    have hwu : wu ≠ [] := by
      rintro rfl
      cases su0 with
      | nil => exact hu0 hu1.symm
      | cons q su0 => exact hsu.words_ne ([], []) (by simp) rfl
    have hsvw : ∀ p ∈ sv, p.1 ≠ [] := by
      obtain ⟨⟨w1, s1⟩, sv', rfl⟩ := List.exists_cons_of_ne_nil hsv.ne
      intro p hp
      rcases List.mem_cons.mp hp with rfl | hp
      · rintro rfl
        have hv1 := hsv.text_eq
        rw [flat, List.nil_append] at hv1
        cases s1 with
        | nil =>
          cases sv' with
          | nil => exact hv0 hv1.symm
          | cons q sv' => exact hsv.seps_ne ([], []) (by simp) rfl
        | cons d s1 =>
          rw [← hv1] at hv
          cases hv
          rw [hsv.seps ([], cv :: s1) (by simp) cv (by simp)] at hva
          cases hva
      · exact hsv.words_ne p hp
    have hseg : Segmented isAlpha (stretch (r0 ++ [(w, s)])) (su0 ++ [(wu, sp)] ++ sv) := by
      refine ⟨by simp, ?_, ?_, ?_, ?_, ?_⟩
      · rw [e, flat_append, flat_append, hsv.text_eq, ← hu1]
        simp [flat]
      · intro p hp
        simp only [List.mem_append, List.mem_singleton] at hp
        rcases hp with (hp | rfl) | hp
        · exact hsu.words p (by simp [hp])
        · exact hsu.words (wu, []) (by simp)
        · exact hsv.words p hp
      · intro p hp
        simp only [List.mem_append, List.mem_singleton] at hp
        rcases hp with (hp | rfl) | hp
        · exact hsu.seps p (by simp [hp])
        · exact hspa
        · exact hsv.seps p hp
      · intro p hp
        cases su0 with
        | nil => exact hsvw p (by simpa using hp)
        | cons q su0 =>
          simp only [List.cons_append, List.tail_cons, List.mem_append, List.mem_singleton] at hp
          rcases hp with (hp | rfl) | hp
          · exact hsu.words_ne p (by simp [hp])
          · exact hwu
          · exact hsvw p hp
      · rw [List.dropLast_append_of_ne_nil hsv.ne]
        intro p hp
        simp only [List.mem_append, List.mem_singleton] at hp
        rcases hp with (hp | rfl) | hp
        · exact hsu.seps_ne p (by rw [List.dropLast_concat]; exact hp)
        · exact hsp0
        · exact hsv.seps_ne p hp
    have heq := segmented_unique hst hseg
    have hmem : (wu, sp) ∈ (su0 ++ [(wu, sp)] ++ sv).dropLast := by
      rw [List.dropLast_append_of_ne_nil hsv.ne]; simp
    rw [← heq, List.dropLast_concat] at hmem
    exact (hsep _ hmem).resolve_right hwu

/-- **C96**: every match of a search consists of whole words of the text, as many as were asked for at
most; only single bytes separate them.  Its variants are known, and only a single word may have none. -/
theorem matches_stretches {vm : Vm} {x : TextExt} {cfg : TextConfig} {p : TextParams} {text : List Char}
    {ms : List Match} (hsp : x.isAlpha ' ' = false) (hsolve : SolverOk x.solve)
    (hu : p.unicodeoffsets = false) (h : vm.findAllMatches x cfg p text = .ok ms) :
    StretchesOf x.isAlpha p.maxNgram text (ms.map fun m => (m.first, m.text)) ∧
      ∀ m ∈ ms, m.last = m.first + byteLen m.text ∧ ∃ vs, m.variants = some vs ∧
        (vs = [] → ∀ c ∈ m.text, x.isAlpha c = true) := by
  have hlast : ∀ m ∈ ms, m.last = m.first + byteLen m.text := by
    intro m hm
    obtain ⟨a, b, _, h1, h2⟩ := ((text_matches hsp hsolve hu h).1 m hm).1
    rw [h1, h2, byteLen_append]
  have hord : ms.Pairwise fun a b => a.first + byteLen a.text < b.first := by
    refine (text_matches hsp hsolve hu h).2.imp_of_mem ?_
    intro a b ha _ hab
    rw [← hlast a ha]
    exact hab
  suffices key : ∀ m ∈ ms, StretchAt x.isAlpha p.maxNgram text m.first m.text ∧
      ∃ vs, m.variants = some vs ∧ (vs = [] → ∀ c ∈ m.text, x.isAlpha c = true) by
    refine ⟨⟨List.pairwise_map.mpr hord, ?_⟩, fun m hm => ⟨hlast m hm, (key m hm).2⟩⟩
    intro r hr
    obtain ⟨m, hm, rfl⟩ := List.mem_map.mp hr
    exact (key m hm).1
  intro m hm
  by_cases hne : text = []
  · unfold Vm.findAllMatches at h
    rw [if_pos hne] at h
    cases h
    cases hm
  by_cases hi : vm.index.isEmpty = true
  · unfold Vm.findAllMatches at h
    rw [if_neg hne, if_pos hi] at h
    cases h
    cases hm
  rw [Bool.not_eq_true] at hi
  obtain ⟨segs, hs, _⟩ := findBoundaries_eq x.isAlpha text
  rw [findAllMatches_eq vm x cfg p hne hi hs] at h
  obtain ⟨ms', h1, h⟩ := bind_ok.mp h
  rw [hu] at h
  have := pure_ok.mp h
  subst this
  obtain ⟨hb, hf⟩ := batches_of hs
  rcases hf with hf | ⟨hf, _⟩
  · have := batchesRun_segs (vm := vm) (cfg := cfg) (p := p) hsp hsolve (batches [] segs) [] [] ms' hb
      (batches_seps segs [] (by simp))
    simp only [List.nil_append, List.append_nil, hf, hs.text_eq] at this
    obtain ⟨⟨a, r, b, e1, e2, e3, e4, e5, e6, e7⟩, vs, e8, e9⟩ := this h1 m hm
    rw [List.nil_append] at e6
    rw [e5, e6]
    refine ⟨stretch_of_segs hs e1 e2 e3 e4, vs, e8, fun h0 => ?_⟩
    have hn : r.length = 1 := by
      by_contra hn
      exact e9 (e7 ▸ hn) h0
    obtain ⟨⟨w, s⟩, rfl⟩ := List.length_eq_one_iff.mp hn
    exact hs.words (w, s) (by rw [e1]; simp)
  · rw [hf] at h1
    simp only [Vm.batchesRun, Except.ok.injEq] at h1
    subst h1
    cases hm

/-- **C96**: what a search prints, with whatever resources and options: for each group of lines, rows for
stretches of whole words, in order and with something between them, each with its offsets and all of its
variants. -/
theorem search_rows {x : ToolExt} (hf : ∀ s, ';' ∈ s → x.parseF32 s = none) (hpos : StrictMono x.pos)
    (hsp : x.text.isAlpha ' ' = false) (hsolve : SolverOk x.text.solve)
    {c : CommandLine} (hc : Accepted c) (hsub : c.sub = .search) (hj : ¬ Given c .json)
    {files : List (List Char)} {s : List Char} {ws : List (List FileWrite)}
    (h : x.main c files = .ok (.output s ws)) :
    ∃ L w p cfg inputs texts, Asked x c L w p ∧ Settings x c L w cfg ∧ InputsOf x files inputs ∧
      List.Forall₂ (StretchText x c L cfg p) inputs texts ∧ s = texts.flatten := by
  obtain ⟨_, L, w, p, cfg, inputs, texts, h1, h2, h3, h4, h5⟩ :=
    (search_run hf hpos hc hsub hj files s ws).mp h
  refine ⟨L, w, p, cfg, inputs, texts, h1, h2, h3, h4.imp ?_, h5⟩
  obtain ⟨q, _, hq1, hq2⟩ := h1.params
  have hu : p.unicodeoffsets = false := by rw [hq2.offsets, hq1]
  rintro lines text ⟨perLine, sep, gs, found, rows, g1, g2, g3, g4, g5, g6⟩
  refine ⟨perLine, sep, gs, found.map fun ms => ms.map fun m => (m.first, m.text), rows, g1, g2, g3, ?_, ?_, g6⟩
  · rw [List.forall₂_map_right_iff]
    exact g4.imp fun g ms h => (matches_stretches hsp hsolve hu h).1
  · rw [List.forall₂_map_left_iff]
    clear g6 h4 h5 h g3
    induction g4 generalizing rows with
    | nil => cases g5; exact .nil
    | cons hms _ ih =>
      cases g5 with
      | cons hrow hrows =>
        obtain ⟨k1, k2⟩ := matches_stretches hsp hsolve hu hms
        have k3 := (text_matches hsp hsolve hu hms).1
        refine .cons ?_ (ih _ hrows)
        rw [List.forall₂_map_left_iff]
        clear hms k1
        induction hrow with
        | nil => exact .nil
        | @cons m row _ _ hr _ ih' =>
          refine .cons ?_ (ih' (fun m hm => k2 m (by simp [hm])) (fun m hm => k3 m (by simp [hm])))
          obtain ⟨e1, vs, e2, e3⟩ := k2 m (by simp)
          obtain ⟨cols, hcols, hrow⟩ := hr
          rw [e2] at hcols
          obtain ⟨l, hl, hcols⟩ := hcols
          exact ⟨vs, m.selected, l, cols, (k3 m (by simp)).2.2.1 vs e2, hl, e3, hcols, by rw [hrow, e1]⟩

/-! ### Examples -/

/-- `search --alphabet a --lexicon l --max-ngram-order 2 --max-matches 0 --cutoff-threshold 0.0
--score-threshold 0.0` -/
def exSearchN : CommandLine :=
  { sub := .search, debug := none
    given := [(.alphabet, ['a']), (.lexicon, ['l']), (.maxNgramOrder, ['2']), (.maxMatches, ['0']),
      (.cutoffThreshold, "0.0".toList), (.scoreThreshold, "0.0".toList)] }

/-- What is printed with stretches of two words: one of them has a hyphen, another one begins at a space
before the first word. -/
theorem exSearchN_prints : (exToolT exLex6 exText2).main exSearchN [['t']] = .ok (.output
    ("ab\t0:2\tab\t1\t\ta\t0.5\t\tba\t0.5\t\nx-ba\t4:8\tba\t0.5\t\nb\t10:11\n\n".toList ++
      " aab\t0:4\tab\t0.5\t\na\t5:6\ta\t1\t\n".toList) []) := by decide +kernel

example : ∃ L w p cfg inputs texts, Asked (exToolT exLex6 exText2) exSearchN L w p ∧
    Settings (exToolT exLex6 exText2) exSearchN L w cfg ∧
    InputsOf (exToolT exLex6 exText2) [['t']] inputs ∧
    List.Forall₂ (StretchText (exToolT exLex6 exText2) exSearchN L cfg p) inputs texts ∧
    "ab\t0:2\tab\t1\t\ta\t0.5\t\tba\t0.5\t\nx-ba\t4:8\tba\t0.5\t\nb\t10:11\n\n".toList ++
      " aab\t0:4\tab\t0.5\t\na\t5:6\ta\t1\t\n".toList = texts.flatten :=
  search_rows (x := exToolT exLex6 exText2) (c := exSearchN) ex_noSemicolon ex_pos rfl refSolver_ok (accepted_of (by decide) (by decide)) rfl
    (not_given (by decide)) exSearchN_prints

/-- Two words with a hyphen between them, at byte 4. -/
example : StretchAt letters 2 "ab, x-ba".toList 4 "x-ba".toList :=
  stretch_of_segs (segs := [("ab".toList, ", ".toList), (['x'], ['-']), ("ba".toList, [])])
    (a := [("ab".toList, ", ".toList)]) (r := [(['x'], ['-']), ("ba".toList, [])]) (b := [])
    ⟨by decide, by decide, by decide, by decide, by decide, by decide⟩ rfl (by decide) (by decide) (by decide)

/-- The word `ab` and the beginning of the word after it are not a stretch. -/
example : ¬ StretchAt letters 2 "ab ba".toList 0 "ab b".toList := by
  rintro ⟨⟨pre, post, h1, h2, _, h4⟩, _⟩
  have : pre = [] := by
    cases pre with
    | nil => rfl
    | cons c pre => exact absurd h2 (by have := byteLen_pos (List.cons_ne_nil c pre); omega)
  subst this
  have e : post = ['a'] := (List.append_cancel_left (as := "ab b".toList) (h1 : "ab b".toList ++ ['a'] = _)).symm
  subst e
  exact absurd (h4 'a' rfl) (by decide)

end Verif.Props
