import Verif.Lemmas.Path

/-!
# Lemmas about `find_all_matches`
-/
namespace Verif.Lemmas

open Verif.Spec Verif.Model

/-! ## Words -/

theorem _root_.Verif.Spec.IsBatch.has_word {isAlpha : Char → Bool} {g : List Seg} (h : IsBatch isAlpha g) :
    ∃ a w s b, g = a ++ [(w, s)] ++ b ∧ w ≠ [] := by
  match g, h with
  | [(w, s)], h => exact ⟨[], w, s, [], rfl, h.word⟩
  | p :: (w, s) :: g, h => exact ⟨[p], w, s, g, rfl, h.seg.words_ne (w, s) (by simp)⟩
  | [], h => exact absurd rfl h.seg.ne

theorem run_mem {n o : Nat} {a r b : List Seg} (h2 : r.length = n) (h3 : stretch r ≠ []) :
    spanAt (o + byteLen (flat a)) r ∈ runsFrom n o (a ++ r ++ b) := by
  induction a generalizing o with
  | nil =>
    cases r with
    | nil => exact absurd rfl h3
    | cons p r =>
      have e : ((p :: r) ++ b).take n = p :: r := by rw [← h2, List.take_left]
      rw [List.nil_append]
      rw [show p :: r ++ b = p :: (r ++ b) from rfl] at e ⊢
      rw [runsFrom, e, if_pos ⟨by rw [← h2]; simp, h3⟩]
      simp [flat, byteLen]
  | cons q a ih =>
    rw [List.cons_append, List.cons_append, runsFrom, List.mem_append]
    right
    have := ih (o := o + byteLen (q.1 ++ q.2))
    simp only [flat, byteLen_append, Nat.add_assoc] at this ⊢
    exact this

theorem runs1_append (o : Nat) (a b : List Seg) :
    runsFrom 1 o (a ++ b) = runsFrom 1 o a ++ runsFrom 1 (o + byteLen (flat a)) b := by
  induction a generalizing o with
  | nil => simp [runsFrom, flat, byteLen]
  | cons p a ih =>
    obtain ⟨w, s⟩ := p
    rw [List.cons_append, runsFrom, runsFrom, ih, flat, byteLen_append, byteLen_append, byteLen_append]
    simp only [List.length_cons, List.take_succ_cons, List.take_zero, Nat.le_add_left, true_and,
      List.append_assoc, Nat.add_assoc]

theorem runs1_ordered {isAlpha : Char → Bool} {text : List Char} {g : List Seg}
    (h : Segmented isAlpha text g) (o : Nat) :
    (runsFrom 1 o g).Pairwise (fun a b => a.last < b.first) := by
  induction g generalizing o text with
  | nil => exact .nil
  | cons p g ih =>
    obtain ⟨w, s⟩ := p
    rw [runsFrom]
    cases g with
    | nil => simp only [runsFrom, List.append_nil]; split <;> simp
    | cons q g =>
      have h2 := ih (segmented_tail h) (o + byteLen (w ++ s))
      split
      · rw [List.singleton_append, List.pairwise_cons]
        refine ⟨?_, h2⟩
        intro m hm
        obtain ⟨a, r, b, _, _, _, rfl⟩ := mem_runs hm
        have := byteLen_pos (h.seps_ne (w, s) (by simp [List.dropLast]))
        simp only [spanAt, List.take_succ_cons, List.take_zero, stretch, byteLen_append]
        simp only at this
        omega
      · rw [List.nil_append]; exact h2

/-! ## One batch -/

/-- What is known about the matches of a batch. -/
structure BatchOk (vm : Vm) (x : TextExt) (cfg : TextConfig) (p : TextParams) (o : Nat)
    (g : List Seg) (ms : List Match) : Prop where
  spans : ∀ m ∈ ms, ∃ s e, Span o g s e m
  order : ∀ m ∈ ms, m.n ≤ p.maxNgram
  known : ∀ m ∈ ms, ∃ v, m.variants = some v ∧ (m.n ≠ 1 → v ≠ [])
  variants : ∀ m ∈ ms, ∀ v, m.variants = some v →
    vm.findVariants x.toExt cfg.toConfig p.variant m.text = .ok v
  selected : ∀ m ∈ ms, ∀ i, m.selected = some i → ∃ vs, m.variants = some vs ∧
    (i < vs.length ∨ vs = [])
  ordered : ms.Pairwise (fun a b => a.last < b.first)

theorem Looked.variants {vm : Vm} {x : TextExt} {cfg : TextConfig} {p : TextParams} {run m : Match}
    {k o : Nat} {g : List Seg} (h : Looked vm x cfg p run m) (hr : run ∈ runsFrom k o g) :
    ∀ v, m.variants = some v → vm.findVariants x.toExt cfg.toConfig p.variant m.text = .ok v := by
  obtain ⟨a, r, b, _, _, _, rfl⟩ := mem_runs hr
  intro v hv
  rcases h with rfl | ⟨v', h1, rfl⟩
  · cases hv
  · cases hv; exact h1

/-- The unigrams of a batch with their variants. -/
def Words (vm : Vm) (x : TextExt) (cfg : TextConfig) (p : TextParams) (runs ms : List Match) : Prop :=
  List.Forall₂ (fun run m => ∃ v, vm.findVariants x.toExt cfg.toConfig p.variant run.text = .ok v ∧
    m = { run with variants := some v }) runs ms

theorem gather_unigrams {vm : Vm} {x : TextExt} {cfg : TextConfig} {p : TextParams}
    (hsp : x.isAlpha ' ' = false) {pre post : List Char} {g : List Seg}
    (hg : IsBatch x.isAlpha g) {out : List Match} :
    vm.gatherSegments x cfg p (pre ++ flat g ++ post) (boundariesFrom (byteLen pre) g)
        (byteLen pre) (byteLen pre + byteLen (stretch g)) 1 1 [] = .ok out ↔
      Words vm x cfg p (runsFrom 1 (byteLen pre) g) out := by
  rw [Vm.gatherSegments, findMatchNgrams_eq hsp (Nat.le_refl 1) hg.seg.ne hg.seg]
  have hf : ∀ s m, vm.processSegment x cfg p 1 [] s = .ok m ↔
      ∃ v, vm.findVariants x.toExt cfg.toConfig p.variant s.text = .ok v ∧
        m = { s with variants := some v } := by
    intro s m
    unfold Vm.processSegment
    rw [if_pos (by simp), bind_ok]
    constructor
    · rintro ⟨v, h1, h2⟩; exact ⟨v, h1, (pure_ok.mp h2).symm⟩
    · rintro ⟨v, h1, rfl⟩; exact ⟨v, h1, rfl⟩
  unfold Words
  simp only [← hf]
  rw [bind_ok]
  simp only [Except.ok.injEq, exists_eq_left']
  split
  · rw [bind_ok, ← processSeq_ok]
    simp only [Vm.gatherSegments, List.nil_append, Except.ok.injEq]
    constructor
    · rintro ⟨a, h, rfl⟩; exact h
    · intro h; exact ⟨out, h, rfl⟩
  · rw [bind_ok, ← processSeq_ok, ← processPar_perm (x.sched_perm _)]
    simp only [Vm.gatherSegments, List.nil_append, Except.ok.injEq]
    constructor
    · rintro ⟨a, h, rfl⟩; exact h
    · intro h; exact ⟨out, h, rfl⟩

theorem words_ordered {vm : Vm} {x : TextExt} {cfg : TextConfig} {p : TextParams}
    {runs ms : List Match} (h : Words vm x cfg p runs ms)
    (hr : runs.Pairwise (fun a b => a.last < b.first)) :
    ms.Pairwise (fun a b => a.last < b.first) := by
  induction h with
  | nil => exact .nil
  | cons h1 h2 ih =>
    rw [List.pairwise_cons] at hr ⊢
    refine ⟨?_, ih hr.2⟩
    intro m hm
    obtain ⟨run, h3, v, _, rfl⟩ := mem_of_forall₂_right h2 hm
    obtain ⟨v', _, rfl⟩ := h1
    exact hr.1 run h3

theorem words_looked {vm : Vm} {x : TextExt} {cfg : TextConfig} {p : TextParams}
    {runs ms : List Match} (h : Words vm x cfg p runs ms) {m : Match} (hm : m ∈ ms) :
    ∃ run ∈ runs, Looked vm x cfg p run m := by
  obtain ⟨run, h3, v, h4, rfl⟩ := mem_of_forall₂_right h hm
  exact ⟨run, h3, .inr ⟨v, h4, rfl⟩⟩

/-- The chosen sequence selects matches of the batch. -/
theorem mostLikelySequence_ok {vm : Vm} {x : TextExt} {cfg : TextConfig} {p : TextParams}
    (hsolve : SolverOk x.solve) {o : Nat} {g : List Seg} (hg : IsBatch x.isAlpha g)
    {all ms : List Match} (hsp : ∀ m ∈ all, ∃ s e, Span o g s e m)
    (hw : all = [] ∨ ∃ m ∈ all, ∃ s v, Span o g s (s + 1) m ∧ m.variants = some v)
    (h : vm.mostLikelySequence x cfg p all (boundariesFrom o g) (o + byteLen (stretch g)) = .ok ms) :
    Selection o g all 0 ms := by
  obtain ⟨syms, trs, h1, _, h3, h4, h5⟩ := buildFst_ok x p.variant.freqWeight hg hsp
  unfold Vm.mostLikelySequence at h
  rw [h1] at h
  obtain ⟨_, hr, h⟩ := bind_ok.mp h
  cases hr
  simp only at h
  split at h
  · next hl =>
    have ht := h5 hl
    rcases hw with rfl | ⟨m, hm, s, v, hs, hv⟩
    · have := pure_ok.mp h
      subst this
      exact ⟨by simp, by simp, by simp, by simp, .nil⟩
    · exfalso
      obtain ⟨j, hj⟩ := List.mem_iff_getElem?.mp hm
      obtain ⟨c1, c2⟩ := h4 j m s (s + 1) hj hs
      cases v with
      | nil =>
        obtain ⟨t, ht', _⟩ := c2 (by simp [Match.isEmpty, hv]) rfl
        rw [ht] at ht'; cases ht'
      | cons a v =>
        obtain ⟨t, ht', _⟩ := c1 _ 0 a hv rfl
        rw [ht] at ht'; cases ht'
  · obtain ⟨seqs, h6, h⟩ := bind_ok.mp h
    split at h
    · cases h
    · next best _ hb =>
      have hf := sequencesOf_ok.mp h6
      have hne : seqs ≠ [] := by
        rintro rfl
        simp [selectBest] at hb
      obtain ⟨s, b1, b2, _⟩ := selectBest_none _ seqs hne
      rw [hb] at b1
      simp only [Option.some.injEq, Prod.mk.injEq] at b1
      obtain ⟨rfl, _⟩ := b1
      obtain ⟨path, hp, hs⟩ := mem_of_forall₂_right hf b2
      obtain ⟨hs1, _⟩ := sequenceOf_symbols hs
      obtain ⟨ts, ⟨q, _, hq⟩, e⟩ := hsolve.sound _ _ _ hp
      obtain ⟨os, a1, a2⟩ := walk_matches hg h3 ts 0 q hq
      rw [e, a1] at hs1
      cases hs1
      obtain ⟨ms', a3, a4⟩ := a2 best.tags 0
      rw [a3] at h
      cases h
      exact a4

theorem batchMatches_ok {vm : Vm} {x : TextExt} {cfg : TextConfig} {p : TextParams}
    (hsp : x.isAlpha ' ' = false) (hsolve : SolverOk x.solve) {pre post : List Char}
    {g : List Seg} (hg : IsBatch x.isAlpha g) {ms : List Match}
    (h : vm.batchMatches x cfg p (pre ++ flat g ++ post) (boundariesFrom (byteLen pre) g)
      (byteLen pre) (byteLen pre + byteLen (stretch g)) = .ok ms) :
    BatchOk vm x cfg p (byteLen pre) g ms := by
  unfold Vm.batchMatches at h
  obtain ⟨batch, h1, h⟩ := bind_ok.mp h
  split at h
  · obtain ⟨new, e1, e2, e3⟩ := gatherSegments_ok hsp hg p.maxNgram 1 [] batch (Nat.le_refl 1) h1
    rw [List.nil_append] at e1
    subst e1
    have hspan : ∀ m ∈ batch, ∃ s e, Span (byteLen pre) g s e m := by
      intro m hm
      obtain ⟨k, run, _, _, h2, h3⟩ := e2 m hm
      obtain ⟨s, hs⟩ := h3.span h2
      exact ⟨s, _, hs⟩
    have hw : batch = [] ∨ ∃ m ∈ batch, ∃ s v, Span (byteLen pre) g s (s + 1) m ∧
        m.variants = some v := by
      by_cases hn : p.maxNgram = 0
      · left
        rw [hn] at h1
        simp only [Vm.gatherSegments, Except.ok.injEq] at h1
        exact h1.symm
      · right
        obtain ⟨a, w, s, b, rfl, hw⟩ := hg.has_word
        have hr := run_mem (n := 1) (o := byteLen pre) (a := a) (r := [(w, s)]) (b := b) rfl hw
        obtain ⟨m, hm, h2, h3⟩ := e3 1 _ (Nat.le_refl 1) (by omega) hr
        obtain ⟨v, hv⟩ := h3 rfl
        obtain ⟨s', hs'⟩ := h2.span hr
        exact ⟨m, hm, s', v, hs', hv⟩
    have sel := mostLikelySequence_ok hsolve hg hspan hw h
    constructor
    · intro m hm
      obtain ⟨s, e, _, h2⟩ := sel.spans m hm
      exact ⟨s, e, h2⟩
    · intro m hm
      obtain ⟨m0, h2, _, _, h4⟩ := sel.from_ m hm
      obtain ⟨k, run, _, h5, h6, h7⟩ := e2 m0 h2
      obtain ⟨s, hs⟩ := h7.span h6
      rw [h4, hs.n]
      omega
    · intro m hm
      obtain ⟨m0, h2, _, h3, h4⟩ := sel.from_ m hm
      cases hs : m.selected with
      | none =>
        have hu := (sel.unselected m hm hs).2
        obtain ⟨v, hv⟩ := gatherSegments_known hsp hg p.maxNgram 1 [] batch (Nat.le_refl 1) h1 (by simp)
          m0 h2 (h4 ▸ hu)
        exact ⟨v, h3 ▸ hv, fun h => absurd hu h⟩
      | some i =>
        obtain ⟨vs, h5, h6⟩ := sel.selected m hm i hs
        exact ⟨vs, h5, fun _ => by rintro rfl; exact absurd h6 (Nat.not_lt_zero _)⟩
    · intro m hm v hv
      obtain ⟨m0, h2, h3, h4, _⟩ := sel.from_ m hm
      obtain ⟨k, run, _, _, h5, h6⟩ := e2 m0 h2
      rw [h3]
      exact h6.variants h5 v (h4 ▸ hv)
    · intro m hm i hi
      obtain ⟨vs, h2, h3⟩ := sel.selected m hm i hi
      exact ⟨vs, h2, .inl h3⟩
    · exact sel.ordered
  · next hc =>
    have := pure_ok.mp h
    subst this
    have hn : p.maxNgram = 0 ∨ p.maxNgram = 1 := by
      by_contra hcon
      exact hc (.inl (by omega))
    rcases hn with hn | hn
    · rw [hn] at h1
      simp only [Vm.gatherSegments, Except.ok.injEq] at h1
      subst h1
      exact ⟨by simp, by simp, by simp, by simp, by simp, .nil⟩
    · rw [hn] at h1
      have hwords := (gather_unigrams hsp hg).mp h1
      have hord := words_ordered hwords (runs1_ordered hg.seg _)
      constructor
      · intro m hm
        obtain ⟨m0, h2, rfl⟩ := List.mem_map.mp hm
        obtain ⟨run, h3, h4⟩ := words_looked hwords h2
        obtain ⟨s, hs⟩ := h4.span h3
        exact ⟨s, _, hs.lt, hs.le, hs.text, hs.first, hs.last, hs.ne, hs.n⟩
      · intro m hm
        obtain ⟨m0, h2, rfl⟩ := List.mem_map.mp hm
        obtain ⟨run, h3, h4⟩ := words_looked hwords h2
        obtain ⟨s, hs⟩ := h4.span h3
        simp only [hs.n]
        omega
      · intro m hm
        obtain ⟨m0, h2, rfl⟩ := List.mem_map.mp hm
        obtain ⟨run, h3, v, h4, rfl⟩ := mem_of_forall₂_right hwords h2
        obtain ⟨a, r, b, _, h5, _, rfl⟩ := mem_runs h3
        exact ⟨v, rfl, fun h => absurd h5 h⟩
      · intro m hm v hv
        obtain ⟨m0, h2, rfl⟩ := List.mem_map.mp hm
        obtain ⟨run, h3, h4⟩ := words_looked hwords h2
        exact h4.variants h3 v hv
      · intro m hm i hi
        obtain ⟨m0, h2, rfl⟩ := List.mem_map.mp hm
        obtain ⟨run, h3, v, h4, rfl⟩ := mem_of_forall₂_right hwords h2
        cases hi
        refine ⟨v, rfl, ?_⟩
        cases v with
        | nil => exact .inr rfl
        | cons a v => exact .inl (by simp)
      · rw [List.pairwise_map]
        exact hord

/-! ## All batches -/

/-- What is known about the matches of the text. -/
structure TextOk (vm : Vm) (x : TextExt) (cfg : TextConfig) (p : TextParams) (text : List Char)
    (ms : List Match) : Prop where
  faithful : ∀ m ∈ ms, Faithful text m
  ne : ∀ m ∈ ms, m.text ≠ []
  variants : ∀ m ∈ ms, ∀ v, m.variants = some v →
    vm.findVariants x.toExt cfg.toConfig p.variant m.text = .ok v
  selected : ∀ m ∈ ms, ∀ i, m.selected = some i → ∃ vs, m.variants = some vs ∧
    (i < vs.length ∨ vs = [])
  ordered : ms.Pairwise (fun a b => a.last < b.first)

theorem _root_.Verif.Spec.Span.faithful {g : List Seg} {pre post : List Char} {s e : Nat} {m : Match}
    (h : Span (byteLen pre) g s e m) : Faithful (pre ++ flat g ++ post) m ∧ m.text ≠ [] := by
  have h1 := h.lt
  have h2 := h.le
  have hne : (g.take e).drop s ≠ [] := by
    intro h0
    have := congrArg List.length h0
    simp at this; omega
  have e1 : stretch (g.take e) = flat (g.take s) ++ m.text := by
    conv_lhs => rw [← List.take_append_drop s (g.take e)]
    rw [stretch_append _ _ hne, h.text, List.take_take, Nat.min_eq_left (by omega)]
  obtain ⟨q, hq⟩ := (stretch_prefix_flat (g.take e)).trans (flat_take_prefix g e)
  refine ⟨⟨pre ++ flat (g.take s), q ++ post, ?_, ?_, ?_⟩, ?_⟩
  · rw [← hq, e1]; simp
  · rw [h.first, byteLen_append]
  · rw [h.last, e1]; simp [byteLen_append]
  · intro h0
    have h3 := h.ne
    rw [h.first, h.last, e1, h0] at h3
    simp at h3

theorem batchesRun_textOk {vm : Vm} {x : TextExt} {cfg : TextConfig} {p : TextParams}
    (hsp : x.isAlpha ' ' = false) (hsolve : SolverOk x.solve) (gs : List (List Seg)) :
    ∀ (pre post : List Char) (ms : List Match), (∀ g ∈ gs, IsBatch x.isAlpha g) →
      (gs ≠ [] → Segmented x.isAlpha (flat gs.flatten) gs.flatten) →
      Vm.batchesRun vm x cfg p (pre ++ flat gs.flatten ++ post) (byteLen pre) gs = .ok ms →
      TextOk vm x cfg p (pre ++ flat gs.flatten ++ post) ms ∧ ∀ m ∈ ms, byteLen pre ≤ m.first := by
  induction gs with
  | nil =>
    intro pre post ms _ _ h
    simp only [Vm.batchesRun, Except.ok.injEq] at h
    subst h
    exact ⟨⟨by simp, by simp, by simp, by simp, .nil⟩, by simp⟩
  | cons g gs ih =>
    intro pre post ms hb hseg h
    have ht : pre ++ flat (g :: gs).flatten ++ post = pre ++ flat g ++ (flat gs.flatten ++ post) := by
      simp [flat_append]
    have ht' : pre ++ flat (g :: gs).flatten ++ post = (pre ++ flat g) ++ flat gs.flatten ++ post := by
      simp [flat_append]
    rw [Vm.batchesRun] at h
    obtain ⟨r, h1, h⟩ := bind_ok.mp h
    obtain ⟨rest, h2, h⟩ := bind_ok.mp h
    have h := pure_ok.mp h
    subst h
    have hg := hb g (by simp)
    rw [ht] at h1
    have b := batchMatches_ok hsp hsolve hg h1
    rw [ht', ← byteLen_append] at h2
    have hseg := hseg (by simp)
    have hrest : gs ≠ [] → Segmented x.isAlpha (flat gs.flatten) gs.flatten := by
      intro hne
      have hgs : gs.flatten ≠ [] := by
        cases gs with
        | nil => exact absurd rfl hne
        | cons g' gs =>
          have := (hb g' (by simp)).seg.ne
          simp [this]
      refine segmented_infix (text := flat (g :: gs).flatten) (a := g) (b := []) ?_ hgs
      simpa using hseg
    obtain ⟨t, tge⟩ := ih (pre ++ flat g) post rest (fun g' hg' => hb g' (by simp [hg'])) hrest h2
    · refine ⟨⟨?_, ?_, ?_, ?_, ?_⟩, ?_⟩
      · intro m hm
        rw [List.mem_append] at hm
        rcases hm with hm | hm
        · obtain ⟨s, e, hs⟩ := b.spans m hm
          rw [ht]; exact hs.faithful.1
        · rw [ht']; exact t.faithful m hm
      · intro m hm
        rw [List.mem_append] at hm
        rcases hm with hm | hm
        · obtain ⟨s, e, hs⟩ := b.spans m hm
          exact (hs.faithful (post := post)).2
        · exact t.ne m hm
      · intro m hm
        rw [List.mem_append] at hm
        exact hm.elim (b.variants m) (t.variants m)
      · intro m hm
        rw [List.mem_append] at hm
        exact hm.elim (b.selected m) (t.selected m)
      · rw [List.pairwise_append]
        refine ⟨b.ordered, t.ordered, ?_⟩
        intro m hm m' hm'
        obtain ⟨s, e, hs⟩ := b.spans m hm
        have h3 := tge m' hm'
        rw [byteLen_append] at h3
        have hge := hs.lt
        have hle := hs.le
        rw [hs.last]
        rcases Nat.lt_or_ge e g.length with c | c
        · have := hg.stretch_lt_flat (show 1 ≤ e by omega) c
          have := flat_take_mono g (Nat.le_of_lt c)
          rw [List.take_length] at this
          omega
        · have he : e = g.length := by omega
          subst he
          obtain ⟨w, c', q1, q2, q3⟩ := stretch_take (show 1 ≤ g.length by omega) (Nat.le_refl g.length)
          rw [List.take_length] at q3 ⊢
          have hgs : gs.flatten ≠ [] := by
            cases gs with
            | nil =>
              simp only [Vm.batchesRun, Except.ok.injEq] at h2
              subst h2; cases hm'
            | cons g' gs =>
              have := (hb g' (by simp)).seg.ne
              simp [this]
          have hmem : (w, c') ∈ (g :: gs).flatten.dropLast := by
            rw [List.flatten_cons, List.dropLast_append_of_ne_nil hgs]
            exact List.mem_append_left _ (List.mem_of_getElem? q1)
          have := byteLen_pos (hseg.seps_ne _ hmem)
          simp only at this
          rw [q3, byteLen_append] at h3
          omega
      · intro m hm
        rw [List.mem_append] at hm
        rcases hm with hm | hm
        · obtain ⟨s, e, hs⟩ := b.spans m hm
          rw [hs.first]; omega
        · have := tge m hm
          rw [byteLen_append] at this; omega

theorem infix_of_mem_flatten {α : Type} {g : List α} {gs : List (List α)} (h : g ∈ gs) :
    ∃ a b, gs.flatten = a ++ g ++ b := by
  obtain ⟨s, t, rfl⟩ := List.append_of_mem h
  exact ⟨s.flatten, t.flatten, by simp⟩

/-- The batches of a text. -/
theorem batches_of {isAlpha : Char → Bool} {text : List Char} {segs : List Seg}
    (hs : Segmented isAlpha text segs) :
    (∀ g ∈ batches [] segs, IsBatch isAlpha g) ∧
      ((batches [] segs).flatten = segs ∨ (batches [] segs = [] ∧ ∃ s, segs = [([], s)])) := by
  have hf := batches_flatten segs [] hs.ne hs.words_ne
  rw [List.nil_append] at hf
  constructor
  · intro g hg
    obtain ⟨h1, h2⟩ := batches_ne hs segs [] [] rfl g hg
    refine ⟨?_, h2⟩
    rcases hf with hf | ⟨_, hf, _⟩
    · obtain ⟨a, b, e⟩ := infix_of_mem_flatten hg
      rw [hf] at e
      exact segmented_infix (text := text) (e ▸ hs) h1
    · rw [hf] at hg; cases hg
  · rcases hf with hf | ⟨_, hf, h⟩
    · exact .inl hf
    · exact .inr ⟨hf, h⟩

/-! ## What does not matter -/

theorem forall₂_append_left {α β : Type} {R : α → β → Prop} {a b : List α} {l : List β}
    (h : List.Forall₂ R (a ++ b) l) :
    ∃ l1 l2, l = l1 ++ l2 ∧ List.Forall₂ R a l1 ∧ List.Forall₂ R b l2 := by
  induction a generalizing l with
  | nil => exact ⟨[], l, rfl, .nil, h⟩
  | cons x a ih =>
    rw [List.cons_append, List.forall₂_cons_left_iff] at h
    obtain ⟨y, l', h1, h2, rfl⟩ := h
    obtain ⟨l1, l2, rfl, h3, h4⟩ := ih h2
    exact ⟨y :: l1, l2, rfl, .cons h1 h3, h4⟩

/-- Another schedule. -/
def withSched (x : TextExt) (sched : Nat → List Nat) (h : ∀ n, (sched n).Perm (List.range n)) :
    TextExt := { x with sched := sched, sched_perm := h }

/-- Other settings of the two options that do not concern single batches. -/
def withOptions (p : TextParams) (singleThread unicodeoffsets : Bool) : TextParams :=
  { p with singleThread := singleThread, unicodeoffsets := unicodeoffsets }

theorem sequencesOf_options (vm : Vm) (x : TextExt) (cfg : TextConfig) (p : TextParams)
    (sched : Nat → List Nat) (h : ∀ n, (sched n).Perm (List.range n)) (a b : Bool)
    (bs : List Match) (syms : List OutputSymbol) (paths : List FstPath) :
    vm.sequencesOf (withSched x sched h) cfg (withOptions p a b) bs syms paths =
      vm.sequencesOf x cfg p bs syms paths := by
  have hlm : ∀ (ts : List (Option Nat)) (l : EFloat) (n : Nat),
      vm.lmTokensLoop (withSched x sched h) ts l n = vm.lmTokensLoop x ts l n := by
    intro ts
    induction ts with
    | nil => intro l n; rfl
    | cons t ts ih =>
      intro l n
      cases ts with
      | nil => rfl
      | cons t' ts => simp only [Vm.lmTokensLoop]; exact ih _ _
  induction paths with
  | nil => rfl
  | cons path paths ih =>
    rw [Vm.sequencesOf, Vm.sequencesOf, ih]
    have : vm.sequenceOf (withSched x sched h) cfg (withOptions p a b) bs syms path =
        vm.sequenceOf x cfg p bs syms path := by
      unfold Vm.sequenceOf Vm.lmScore Vm.lmScoreTokens
      simp only [hlm]
      rfl
    rw [this]

theorem matchesTrs_sched (x : TextExt) (fw : Rat) (sched : Nat → List Nat)
    (h : ∀ n, (sched n).Perm (List.range n)) (bs : List Match) (ms : List Match) :
    ∀ (i : Nat) (syms : List OutputSymbol) (trs : List Tr),
      matchesTrs (withSched x sched h) fw bs i ms syms trs = matchesTrs x fw bs i ms syms trs := by
  have hv : ∀ (vs : List VariantResult) (mi src next n vi : Nat) (syms : List OutputSymbol)
      (trs : List Tr), variantTrs (withSched x sched h) fw mi src next n vi vs syms trs =
        variantTrs x fw mi src next n vi vs syms trs := by
    intro vs
    induction vs with
    | nil => intros; rfl
    | cons v vs ih => intros; rw [variantTrs, variantTrs, ih]; rfl
  induction ms with
  | nil => intros; rfl
  | cons m ms ih =>
    intro i syms trs
    rw [matchesTrs, matchesTrs]
    simp only [ih]
    have : matchTrs (withSched x sched h) fw bs i m syms trs = matchTrs x fw bs i m syms trs := by
      unfold matchTrs
      simp only [hv]
      rfl
    rw [this]

theorem mostLikelySequence_options (vm : Vm) (x : TextExt) (cfg : TextConfig) (p : TextParams)
    (sched : Nat → List Nat) (h : ∀ n, (sched n).Perm (List.range n)) (a b : Bool)
    (ms bs : List Match) (e : Nat) :
    vm.mostLikelySequence (withSched x sched h) cfg (withOptions p a b) ms bs e =
      vm.mostLikelySequence x cfg p ms bs e := by
  unfold Vm.mostLikelySequence buildFst
  simp only [matchesTrs_sched, sequencesOf_options]
  rfl

theorem gatherSegments_options {vm : Vm} {x : TextExt} {cfg : TextConfig} {p : TextParams}
    (sched : Nat → List Nat) (h : ∀ n, (sched n).Perm (List.range n)) (a b : Bool)
    {text : List Char} {bs : List Match} {o e : Nat} (n : Nat) :
    ∀ (order : Nat) (batch out : List Match),
      vm.gatherSegments (withSched x sched h) cfg (withOptions p a b) text bs o e order n batch = .ok out ↔
      vm.gatherSegments x cfg p text bs o e order n batch = .ok out := by
  have key : ∀ (x : TextExt) (p : TextParams) (f : Match → Res Match) (segs out : List Match)
      (k : List Match → Res (List Match)),
      (if p.singleThread = true then processSeq f segs >>= k
        else processPar f (x.sched segs.length) segs >>= k) = .ok out ↔
      (processSeq f segs >>= k) = .ok out := by
    intro x p f segs out k
    split
    · rfl
    · rw [bind_ok, bind_ok]
      simp only [processPar_perm (x.sched_perm _)]
  induction n with
  | zero => intros; rfl
  | succ n ih =>
    intro order batch out
    rw [Vm.gatherSegments, Vm.gatherSegments, bind_ok, bind_ok]
    apply exists_congr
    intro segs
    apply and_congr_right
    intro _
    simp only [key]
    rw [bind_ok, bind_ok]
    simp only [ih]
    rfl

theorem batchMatches_options {vm : Vm} {x : TextExt} {cfg : TextConfig} {p : TextParams}
    (sched : Nat → List Nat) (h : ∀ n, (sched n).Perm (List.range n)) (a b : Bool)
    {text : List Char} {bs : List Match} {o e : Nat} (out : List Match) :
    vm.batchMatches (withSched x sched h) cfg (withOptions p a b) text bs o e = .ok out ↔
      vm.batchMatches x cfg p text bs o e = .ok out := by
  unfold Vm.batchMatches
  rw [bind_ok, bind_ok]
  simp only [show (withOptions p a b).maxNgram = p.maxNgram from rfl, gatherSegments_options,
    mostLikelySequence_options]

theorem batchesRun_options {vm : Vm} {x : TextExt} {cfg : TextConfig} {p : TextParams}
    (sched : Nat → List Nat) (h : ∀ n, (sched n).Perm (List.range n)) (a b : Bool)
    {text : List Char} (gs : List (List Seg)) : ∀ (o : Nat) (out : List Match),
    Vm.batchesRun vm (withSched x sched h) cfg (withOptions p a b) text o gs = .ok out ↔
      Vm.batchesRun vm x cfg p text o gs = .ok out := by
  induction gs with
  | nil => intros; rfl
  | cons g gs ih =>
    intro o out
    rw [Vm.batchesRun, Vm.batchesRun, bind_ok, bind_ok]
    simp only [bind_ok, batchMatches_options, ih]

end Verif.Lemmas
