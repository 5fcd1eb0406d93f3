import Verif.Spec.Division
import Verif.Props.Sequence
import Verif.Props.Tokens

/-!
# A search divides the text into stretches at least cost (C97)
-/
namespace Verif.Props

open Verif.Spec Verif.Model Verif.Lemmas

/-! ## Which stretches are looked up -/

theorem redundant_append {c : Match} {us rest : List Match} (hu : ∀ u ∈ us, u.n = 1)
    (hr : ∀ m ∈ rest, m.n ≠ 1) : redundantMatch c (us ++ rest) = redundantMatch c us := by
  induction us with
  | nil =>
    cases rest with
    | nil => rfl
    | cons m rest =>
      rw [List.nil_append, redundantMatch]
      simp [hr m (by simp), redundantMatch]
  | cons u us ih =>
    rw [List.cons_append, redundantMatch, redundantMatch, ih fun u' h => hu u' (by simp [h])]

theorem redundant_false {c : Match} {us : List Match} (hu : ∀ u ∈ us, u.n = 1) :
    redundantMatch c us = false ↔ ∃ u ∈ us, c.first ≤ u.first ∧ u.last ≤ c.last ∧
      ∀ vs, u.variants = some vs → ∀ v ∈ vs.head?, v.distScore < 1 := by
  induction us with
  | nil => simp [redundantMatch]
  | cons u us ih =>
    have ih := ih fun u' h => hu u' (by simp [h])
    rw [redundantMatch, if_pos (hu u (by simp))]
    simp only [List.mem_cons, exists_eq_or_imp, ← ih]
    split
    · next hc =>
      have h1 : c.first ≤ u.first := hc.1
      have h2 : u.last ≤ c.last := hc.2
      split
      · next v vs hv =>
        simp only [hv, Option.some.injEq, forall_eq', List.head?_cons, Option.mem_def, h1, h2, true_and]
        by_cases hd : v.distScore < 1
        · simp [hd]
        · simp [hd]
      · next hv => simp [hv, h1, h2]
      · next hv => simp [hv, h1, h2]
    · next hc =>
      constructor
      · exact .inr
      · rintro (⟨h1, h2, _⟩ | h)
        · exact absurd ⟨h1, h2⟩ hc
        · exact h

/-- The match for consecutive words: looked up or not. -/
def Gathered (vm : Vm) (x : TextExt) (cfg : TextConfig) (p : TextParams) (us : List Match) (run m : Match) :
    Prop :=
  (redundantMatch run us = true ∧ m = run) ∨
  (redundantMatch run us = false ∧ ∃ v, vm.findVariants x.toExt cfg.toConfig p.variant run.text = .ok v ∧
    m = { run with variants := some v })

theorem gatherSegments_more {vm : Vm} {x : TextExt} {cfg : TextConfig} {p : TextParams}
    (hsp : x.isAlpha ' ' = false) {pre post : List Char} {g : List Seg}
    (hg : IsBatch x.isAlpha g) {us : List Match} (hu : ∀ u ∈ us, u.n = 1) (n : Nat) :
    ∀ (order : Nat) (rest out : List Match), 2 ≤ order → (∀ m ∈ rest, m.n ≠ 1) →
      vm.gatherSegments x cfg p (pre ++ flat g ++ post) (boundariesFrom (byteLen pre) g)
        (byteLen pre) (byteLen pre + byteLen (stretch g)) order n (us ++ rest) = .ok out →
      ∃ new, out = us ++ rest ++ new ∧
        (∀ m ∈ new, ∃ k run, order ≤ k ∧ k < order + n ∧ run ∈ runsFrom k (byteLen pre) g ∧
          Gathered vm x cfg p us run m) ∧
        (∀ k run, order ≤ k → k < order + n → run ∈ runsFrom k (byteLen pre) g →
          ∃ m ∈ new, Gathered vm x cfg p us run m) := by
  induction n with
  | zero =>
    intro order rest out _ _ h
    simp only [Vm.gatherSegments, Except.ok.injEq] at h
    refine ⟨[], by simp [h], by simp, ?_⟩
    intro k run h1 h2; omega
  | succ n ih =>
    intro order rest out ho hrest h
    rw [Vm.gatherSegments, findMatchNgrams_eq hsp (by omega) hg.seg.ne hg.seg] at h
    obtain ⟨segs, hf, h⟩ : ∃ segs, List.Forall₂ (fun s s' =>
        vm.processSegment x cfg p order (us ++ rest) s = .ok s') (runsFrom order (byteLen pre) g) segs ∧
        vm.gatherSegments x cfg p (pre ++ flat g ++ post) (boundariesFrom (byteLen pre) g)
          (byteLen pre) (byteLen pre + byteLen (stretch g)) (order + 1) n (us ++ rest ++ segs) = .ok out := by
      obtain ⟨_, hr, h⟩ := bind_ok.mp h
      cases hr
      split at h
      · obtain ⟨segs, h1, h⟩ := bind_ok.mp h
        exact ⟨segs, processSeq_ok.mp h1, h⟩
      · obtain ⟨segs, h1, h⟩ := bind_ok.mp h
        exact ⟨segs, processSeq_ok.mp ((processPar_perm (x.sched_perm _)).mp h1), h⟩
    have hgath : ∀ run m, vm.processSegment x cfg p order (us ++ rest) run = .ok m →
        Gathered vm x cfg p us run m := by
      intro run m hm
      unfold Vm.processSegment at hm
      rw [redundant_append hu hrest] at hm
      have h1 : (order = 1) = False := eq_false (by omega)
      simp only [h1, decide_false, Bool.false_or, Bool.not_eq_true'] at hm
      split at hm
      · next hr =>
        obtain ⟨v, h2, h3⟩ := bind_ok.mp hm
        exact .inr ⟨by simpa using hr, v, h2, (pure_ok.mp h3).symm⟩
      · next hr =>
        cases hm
        exact .inl ⟨by simpa using hr, rfl⟩
    have hsegs : ∀ m ∈ segs, m.n ≠ 1 := by
      intro m hm
      obtain ⟨run, hr, h1⟩ := mem_of_forall₂_right hf hm
      obtain ⟨a, r, b, _, h2, _, rfl⟩ := mem_runs hr
      have : m.n = r.length := by
        rcases hgath _ _ h1 with ⟨_, rfl⟩ | ⟨_, v, _, rfl⟩ <;> rfl
      omega
    rw [List.append_assoc us] at h
    obtain ⟨new, e1, e2, e3⟩ := ih (order + 1) (rest ++ segs) out (by omega)
      (fun m hm => (List.mem_append.mp hm).elim (hrest m) (hsegs m)) h
    refine ⟨segs ++ new, by rw [e1]; simp, ?_, ?_⟩
    · intro m hm
      rw [List.mem_append] at hm
      rcases hm with hm | hm
      · obtain ⟨run, hr, h1⟩ := mem_of_forall₂_right hf hm
        exact ⟨order, run, Nat.le_refl _, by omega, hr, hgath _ _ h1⟩
      · obtain ⟨k, run, h1, h2, h3, h4⟩ := e2 m hm
        exact ⟨k, run, by omega, by omega, h3, h4⟩
    · intro k run h1 h2 h3
      rcases Nat.eq_or_lt_of_le h1 with rfl | h1
      · obtain ⟨m, hm, h4⟩ := mem_of_forall₂_left hf h3
        exact ⟨m, by simp [hm], hgath _ _ h4⟩
      · obtain ⟨m, hm, h4⟩ := e3 k run h1 (by omega) h3
        exact ⟨m, by simp [hm], h4⟩

/-- The words within a stretch. -/
theorem word_within {isAlpha : Char → Bool} {g a r b a' b' : List Seg} {w s : List Char} {o : Nat}
    (hg : IsBatch isAlpha g) (h : g = a ++ r ++ b) (hr : stretch r ≠ []) (h' : g = a' ++ [(w, s)] ++ b')
    (hw : w ≠ []) :
    ((spanAt (o + byteLen (flat a)) r).first ≤ (spanAt (o + byteLen (flat a')) [(w, s)]).first ∧
      (spanAt (o + byteLen (flat a')) [(w, s)]).last ≤ (spanAt (o + byteLen (flat a)) r).last) ↔
    a.length ≤ a'.length ∧ a'.length < a.length + r.length := by
  have s1 := span_of_run (o := o) h hr
  have s2 := span_of_run (o := o) (r := [(w, s)]) h' hw
  have l1 := s1.le
  have l2 := s2.le
  have l3 := s1.lt
  rw [List.length_singleton] at s2 l2
  constructor
  · rintro ⟨h1, h2⟩
    constructor
    · by_contra hc
      -- the word ends before the stretch begins
      have := s2.last_lt_first hg s1 (by omega)
      have := s2.ne
      omega
    · by_contra hc
      have := s1.last_lt_first hg s2 (by omega)
      have := s2.ne
      omega
  · rintro ⟨h1, h2⟩
    exact covers_word hg h' s1 h1 h2

/-- The matches gathered for a batch: each stretch of up to `n` words, with its variants if it was looked
up. -/
theorem gathered_matches {vm : Vm} {x : TextExt} {cfg : TextConfig} {p : TextParams}
    (hsp : x.isAlpha ' ' = false) {pre post : List Char} {g : List Seg}
    (hg : IsBatch x.isAlpha g) {all : List Match}
    (h : vm.gatherSegments x cfg p (pre ++ flat g ++ post) (boundariesFrom (byteLen pre) g)
        (byteLen pre) (byteLen pre + byteLen (stretch g)) 1 p.maxNgram [] = .ok all) :
    (∀ m ∈ all, ∃ a r b, g = a ++ r ++ b ∧ r.length ≤ p.maxNgram ∧ stretch r ≠ [] ∧
      ∃ v, m = { spanAt (byteLen pre + byteLen (flat a)) r with variants := v } ∧
        ((∃ vs, v = some vs ∧ vm.findVariants x.toExt cfg.toConfig p.variant (stretch r) = .ok vs ∧
          LookedUp (fun t vs => vm.findVariants x.toExt cfg.toConfig p.variant t = .ok vs)
            VariantResult.distScore r) ∨
        (v = none ∧ r.length ≠ 1))) ∧
    (∀ a r b, g = a ++ r ++ b → r.length ≤ p.maxNgram → stretch r ≠ [] →
      LookedUp (fun t vs => vm.findVariants x.toExt cfg.toConfig p.variant t = .ok vs)
        VariantResult.distScore r →
      ∃ vs, vm.findVariants x.toExt cfg.toConfig p.variant (stretch r) = .ok vs ∧
        { spanAt (byteLen pre + byteLen (flat a)) r with variants := some vs } ∈ all) := by
  generalize hN : p.maxNgram = N at h ⊢
  cases N with
  | zero =>
    simp only [Vm.gatherSegments, Except.ok.injEq] at h
    subst h
    refine ⟨by simp, ?_⟩
    intro a r b _ h2 h3
    obtain rfl : r = [] := List.eq_nil_of_length_eq_zero (by omega)
    exact absurd rfl h3
  | succ N =>
    -- the single words
    obtain ⟨us, h1, h2⟩ : ∃ us, Words vm x cfg p (runsFrom 1 (byteLen pre) g) us ∧
        vm.gatherSegments x cfg p (pre ++ flat g ++ post) (boundariesFrom (byteLen pre) g)
          (byteLen pre) (byteLen pre + byteLen (stretch g)) 2 N us = .ok all := by
      rw [Vm.gatherSegments, findMatchNgrams_eq hsp (Nat.le_refl 1) hg.seg.ne hg.seg] at h
      obtain ⟨_, hr, h⟩ := bind_ok.mp h
      cases hr
      have hone : ∀ us, (if p.singleThread = true then
            processSeq (vm.processSegment x cfg p 1 []) (runsFrom 1 (byteLen pre) g)
          else processPar (vm.processSegment x cfg p 1 []) (x.sched (runsFrom 1 (byteLen pre) g).length)
            (runsFrom 1 (byteLen pre) g)) = .ok us →
          Words vm x cfg p (runsFrom 1 (byteLen pre) g) us := by
        intro us hus
        rw [← gather_unigrams (post := post) hsp hg, Vm.gatherSegments,
          findMatchNgrams_eq hsp (Nat.le_refl 1) hg.seg.ne hg.seg]
        refine bind_ok.mpr ⟨_, rfl, ?_⟩
        split at hus
        · next hc => rw [if_pos hc]; exact bind_ok.mpr ⟨us, hus, by simp [Vm.gatherSegments]⟩
        · next hc => rw [if_neg hc]; exact bind_ok.mpr ⟨us, hus, by simp [Vm.gatherSegments]⟩
      split at h
      · next hc =>
        obtain ⟨us, h1, h⟩ := bind_ok.mp h
        exact ⟨us, hone us (by rw [if_pos hc]; exact h1), h⟩
      · next hc =>
        obtain ⟨us, h1, h⟩ := bind_ok.mp h
        exact ⟨us, hone us (by rw [if_neg hc]; exact h1), h⟩
    have hun : ∀ u ∈ us, u.n = 1 := by
      intro u hu
      obtain ⟨run, hr, v, _, rfl⟩ := mem_of_forall₂_right h1 hu
      obtain ⟨a, r, b, _, h5, _, rfl⟩ := mem_runs hr
      exact h5
    have h2 : vm.gatherSegments x cfg p (pre ++ flat g ++ post) (boundariesFrom (byteLen pre) g)
          (byteLen pre) (byteLen pre + byteLen (stretch g)) 2 N (us ++ []) = .ok all := by
      rw [List.append_nil]; exact h2
    obtain ⟨new, e1, e2, e3⟩ := gatherSegments_more hsp hg hun N 2 [] all (Nat.le_refl 2) (by simp) h2
    rw [List.append_nil] at e1
    subst e1
    -- what redundancy means
    have hred : ∀ a r b, g = a ++ r ++ b → stretch r ≠ [] → r.length ≠ 1 →
        (redundantMatch (spanAt (byteLen pre + byteLen (flat a)) r) us = false ↔
          LookedUp (fun t vs => vm.findVariants x.toExt cfg.toConfig p.variant t = .ok vs)
            VariantResult.distScore r) := by
      intro a r b hab hr hlen
      rw [redundant_false hun]
      constructor
      · rintro ⟨u, hu, c1, c2, c3⟩
        obtain ⟨run, hrun, v, hv, rfl⟩ := mem_of_forall₂_right h1 hu
        obtain ⟨a', r', b', f1, f2, f3, rfl⟩ := mem_runs hrun
        obtain ⟨⟨w, s⟩, rfl⟩ := List.length_eq_one_iff.mp f2
        obtain ⟨k1, k2⟩ := (word_within (o := byteLen pre) hg hab hr f1 f3).mp ⟨c1, c2⟩
        right
        refine ⟨(w, s), ?_, f3, v, hv, c3 v rfl⟩
        have hget : g[a'.length]? = some (w, s) := by
          rw [f1]; simp
        rw [hab, List.append_assoc, List.getElem?_append_right k1, List.getElem?_append_left (by omega)] at hget
        exact List.mem_of_getElem? hget
      · rintro (h0 | ⟨q, hq, hqw, vs, hvs, hd⟩)
        · exact absurd h0 hlen
        · obtain ⟨r1, r2, rfl⟩ := List.append_of_mem hq
          obtain ⟨w, s⟩ := q
          have f1 : g = (a ++ r1) ++ [(w, s)] ++ (r2 ++ b) := by rw [hab]; simp
          have hmem := run_mem (n := 1) (o := byteLen pre) (a := a ++ r1) (r := [(w, s)]) (b := r2 ++ b) rfl hqw
          rw [← f1] at hmem
          obtain ⟨u, hu, v, hv, rfl⟩ := mem_of_forall₂_left h1 hmem
          have hv' : vm.findVariants x.toExt cfg.toConfig p.variant w = .ok v := hv
          have hvs : vm.findVariants x.toExt cfg.toConfig p.variant w = .ok vs := hvs
          rw [hvs] at hv'
          cases hv'
          obtain ⟨k1, k2⟩ := (word_within (o := byteLen pre) hg hab hr f1 hqw).mpr (by simp)
          refine ⟨_, hu, k1, k2, ?_⟩
          intro vs' e
          cases e
          exact hd
    constructor
    · intro m hm
      rcases List.mem_append.mp hm with hm | hm
      · obtain ⟨run, hr, v, hv, rfl⟩ := mem_of_forall₂_right h1 hm
        obtain ⟨a, r, b, f1, f2, f3, rfl⟩ := mem_runs hr
        exact ⟨a, r, b, f1, by omega, f3, some v, rfl, .inl ⟨v, rfl, hv, .inl f2⟩⟩
      · obtain ⟨k, run, k1, k2, hr, hgath⟩ := e2 m hm
        obtain ⟨a, r, b, f1, f2, f3, rfl⟩ := mem_runs hr
        refine ⟨a, r, b, f1, by omega, f3, ?_⟩
        rcases hgath with ⟨g1, rfl⟩ | ⟨g1, v, g2, rfl⟩
        · exact ⟨none, rfl, .inr ⟨rfl, by omega⟩⟩
        · exact ⟨some v, rfl, .inl ⟨v, rfl, g2, (hred a r b f1 f3 (by omega)).mp g1⟩⟩
    · intro a r b f1 f2 f3 hl
      have hmem := run_mem (n := r.length) (o := byteLen pre) (a := a) (r := r) (b := b) rfl f3
      rw [← f1] at hmem
      by_cases hlen : r.length = 1
      · rw [hlen] at hmem
        obtain ⟨u, hu, v, hv, rfl⟩ := mem_of_forall₂_left h1 hmem
        exact ⟨v, hv, List.mem_append_left _ hu⟩
      · have hpos : r.length ≠ 0 := by
          intro h0
          exact f3 (by rw [List.eq_nil_of_length_eq_zero h0]; rfl)
        obtain ⟨m, hm, hgath⟩ := e3 r.length _ (by omega) (by omega) hmem
        rcases hgath with ⟨g1, _⟩ | ⟨_, v, g2, rfl⟩
        · rw [(hred a r b f1 f3 hlen).mpr hl] at g1
          cases g1
        · exact ⟨v, g2, List.mem_append_right _ hm⟩

/-! ## Routes and divisions -/

theorem flat_take_lt {isAlpha : Char → Bool} {g : List Seg} (hg : IsBatch isAlpha g) {s t : Nat} (h : s < t)
    (ht : t < g.length) : byteLen (flat (g.take s)) < byteLen (flat (g.take t)) := by
  have h1 := hg.stretch_lt_flat (e := t) (by omega) ht
  obtain ⟨w, c, _, h2, _⟩ := stretch_take (g := g) (e := t) (by omega) (by omega)
  rw [h2, byteLen_append] at h1
  have := flat_take_mono g (show s ≤ t - 1 by omega)
  omega

theorem span_starts {isAlpha : Char → Bool} {g : List Seg} (hg : IsBatch isAlpha g) {o s e s' e' : Nat}
    {m m' : Match} (h : Span o g s e m) (h' : Span o g s' e' m') (hf : m.first = m'.first) : s = s' := by
  have h1 := h.lt
  have h2 := h.le
  have h3 := h'.lt
  have h4 := h'.le
  rw [h.first, h'.first] at hf
  rcases Nat.lt_trichotomy s s' with c | c | c
  · have := flat_take_lt hg c (by omega)
    omega
  · exact c
  · have := flat_take_lt hg c (by omega)
    omega

/-- What a division says about a match. -/
def divisionKey (m : Match) : Nat × List Char × Option Nat := (m.first, m.text, m.selected)

/-- The matches `all` are those of the stretches of `g` that are looked up. -/
structure Stretches (found : List Char → List VariantResult → Prop) (n o : Nat) (g : List Seg)
    (all : List Match) : Prop where
  sound : ∀ m ∈ all, ∃ a r b, g = a ++ r ++ b ∧ r.length ≤ n ∧ stretch r ≠ [] ∧
    ∃ v, m = { spanAt (o + byteLen (flat a)) r with variants := v } ∧
      ((∃ vs, v = some vs ∧ found (stretch r) vs ∧ LookedUp found VariantResult.distScore r) ∨
        (v = none ∧ r.length ≠ 1))
  complete : ∀ a r b, g = a ++ r ++ b → r.length ≤ n → stretch r ≠ [] →
    LookedUp found VariantResult.distScore r →
    ∃ vs, found (stretch r) vs ∧ { spanAt (o + byteLen (flat a)) r with variants := some vs } ∈ all

/-- What a variant costs, in `f32`. -/
theorem arc_close {x : TextExt} {u : Rat} (hclose : ∀ y, |x.f32.rnd y - y| ≤ u * max 1 |y|) (hu : u ≤ 1 / 1000)
    (hsmall : ∀ k : Int, |k| ≤ 2 → x.f32.rnd k = k) {s : Rat} (h0 : 0 ≤ s) (h2 : s ≤ 2) {n : Nat} (hn : 1 ≤ n) :
    |x.f32.rnd (x.f32.rnd n + x.f32.rnd (1 - x.f32.rnd s)) - (n + (1 - s))| ≤ 7 * u * n := by
  have hu0 : 0 ≤ u := by
    have := (abs_nonneg _).trans (hclose 0)
    simpa using this
  have hn' : (1 : Rat) ≤ n := by exact_mod_cast hn
  have two : x.f32.rnd 2 = 2 := by
    have := hsmall 2 (by norm_num)
    push_cast at this
    exact this
  have mone : x.f32.rnd (-1) = -1 := by
    have := hsmall (-1) (by norm_num)
    push_cast at this
    exact this
  -- the score
  have a1 : 0 ≤ x.f32.rnd s := rnd_nonneg _ h0
  have a2 : x.f32.rnd s ≤ 2 := by
    calc x.f32.rnd s ≤ x.f32.rnd 2 := x.f32.mono _ _ h2
      _ = 2 := two
  have a3 : |x.f32.rnd s - s| ≤ u * 2 := (hclose s).trans
    (mul_le_mul_of_nonneg_left (max_le (by norm_num) (by rw [abs_of_nonneg h0]; exact h2)) hu0)
  -- what it lacks
  have b1 : -1 ≤ x.f32.rnd (1 - x.f32.rnd s) := by
    calc (-1 : Rat) = x.f32.rnd (-1) := mone.symm
      _ ≤ x.f32.rnd (1 - x.f32.rnd s) := x.f32.mono _ _ (by linarith)
  have b2 : x.f32.rnd (1 - x.f32.rnd s) ≤ 1 := rnd_le_one _ (by linarith)
  have b3 : |x.f32.rnd (1 - x.f32.rnd s) - (1 - x.f32.rnd s)| ≤ u * 1 := (hclose _).trans
    (mul_le_mul_of_nonneg_left (max_le (le_refl _) (by rw [abs_le]; constructor <;> linarith)) hu0)
  -- the number of words
  have c1 : |x.f32.rnd n - n| ≤ u * n := (hclose _).trans
    (mul_le_mul_of_nonneg_left (max_le hn' (by rw [abs_of_nonneg (show (0 : Rat) ≤ n by linarith)])) hu0)
  have c2 : 1 ≤ x.f32.rnd n := by
    calc (1 : Rat) = x.f32.rnd 1 := x.f32.one.symm
      _ ≤ x.f32.rnd n := x.f32.mono _ _ hn'
  have hun : u * n ≤ n := mul_le_of_le_one_left (by linarith) (by linarith)
  have hu1 : u ≤ u * n := le_mul_of_one_le_right hu0 hn'
  rw [abs_le] at a3 b3 c1
  have d1 : |x.f32.rnd (x.f32.rnd n + x.f32.rnd (1 - x.f32.rnd s)) -
      (x.f32.rnd n + x.f32.rnd (1 - x.f32.rnd s))| ≤ u * (3 * n) := (hclose _).trans
    (mul_le_mul_of_nonneg_left (max_le (by linarith) (by rw [abs_le]; constructor <;> linarith [c1.2])) hu0)
  rw [abs_le] at d1 ⊢
  constructor <;> linarith [a3.1, a3.2, b3.1, b3.2, c1.1, c1.2, d1.1, d1.2]

theorem two_words {x : TextExt} (hsmall : ∀ k : Int, |k| ≤ 2 → x.f32.rnd k = k) :
    x.f32.rnd (x.f32.rnd (1 : Nat) + 1) = 2 := by
  rw [Nat.cast_one, x.f32.one, show (1 : Rat) + 1 = ((2 : Int) : Rat) by norm_num, hsmall 2 (by norm_num)]
  norm_num

theorem route_division {x : TextExt} {u : Rat} (hclose : ∀ y, |x.f32.rnd y - y| ≤ u * max 1 |y|) (hu : u ≤ 1 / 1000)
    (hsmall : ∀ k : Int, |k| ≤ 2 → x.f32.rnd k = k) {fw : Rat}
    {found : List Char → List VariantResult → Prop}
    (hscore : ∀ t vs, found t vs → ∀ v ∈ vs, 0 ≤ v.score x.f64 fw ∧ v.score x.f64 fw ≤ 191 / 100)
    {n o : Nat} {g : List Seg} {all : List Match}
    (hg : IsBatch x.isAlpha g) (hall : Stretches found n o g all) {q : Nat} {l : List Step} {c : Rat}
    (h : Route x fw o g all q l c) :
    ∃ c', Division found VariantResult.distScore (VariantResult.score x.f64 fw) n
      (o + byteLen (flat (g.take q))) (g.drop q) ((picked l).map divisionKey) c' ∧
      |c - c'| ≤ 7 * u * (g.drop q).length := by
  have hu0 : 0 ≤ u := by
    have := (abs_nonneg _).trans (hclose 0)
    simpa using this
  -- a span of a match is where its words are
  have key : ∀ m ∈ all, ∀ q e, Span o g q e m → ∃ r, g.drop q = r ++ g.drop e ∧ e = q + r.length ∧
      r.length ≤ n ∧ stretch r ≠ [] ∧ m.first = o + byteLen (flat (g.take q)) ∧ m.text = stretch r ∧
      g.take e = g.take q ++ r ∧
      ((∃ vs, m.variants = some vs ∧ found (stretch r) vs ∧ LookedUp found VariantResult.distScore r) ∨
        (m.variants = none ∧ r.length ≠ 1)) := by
    intro m hm q e hs
    obtain ⟨a, r, b, f1, f2, f3, v, rfl, f4⟩ := hall.sound m hm
    have hs' := span_of_run (o := o) f1 f3
    have hq : q = a.length := span_starts hg hs hs' rfl
    subst hq
    have hn : r.length = e - a.length := hs.n
    have he : e = a.length + r.length := by
      have := hs.lt
      omega
    subst he
    have t1 : g.take a.length = a := by rw [f1, List.append_assoc, List.take_left]
    have t2 : g.take (a.length + r.length) = a ++ r := by rw [f1, List.take_left' (by simp)]
    have t3 : g.drop (a.length + r.length) = b := by rw [f1, List.drop_left' (by simp)]
    have t4 : g.drop a.length = r ++ b := by rw [f1, List.append_assoc, List.drop_left]
    refine ⟨r, by rw [t3, t4], rfl, f2, f3, by rw [t1]; rfl, rfl, by rw [t1, t2], ?_⟩
    rcases f4 with ⟨vs, rfl, h1, h2⟩ | ⟨rfl, h1⟩
    · exact .inl ⟨vs, rfl, h1, h2⟩
    · exact .inr ⟨rfl, h1⟩
  induction h with
  | done =>
    rw [List.drop_length]
    exact ⟨0, .done, by simp⟩
  | @skip q l c hlt _ ih =>
    obtain ⟨c', ih, hc⟩ := ih
    rw [List.drop_eq_getElem_cons hlt]
    rw [← List.take_concat_get' g q hlt, flat_append, byteLen_append, ← Nat.add_assoc] at ih
    generalize g[q] = p at ih ⊢
    obtain ⟨w, s⟩ := p
    simp only [flat, List.append_nil] at ih
    refine ⟨_, .skip ih, ?_⟩
    rw [add_sub_add_left_eq_sub, List.length_cons]
    refine hc.trans (mul_le_mul_of_nonneg_left ?_ (by linarith))
    push_cast
    linarith
  | @variant q e' l c m vs i v hm hs hv hi _ ih =>
    obtain ⟨r, k1, k2, k3, k4, k5, k6, k7, k8⟩ := key m hm q e' hs
    rcases k8 with ⟨vs', k8, k9, k10⟩ | ⟨k8, _⟩
    · rw [k8] at hv
      cases hv
      obtain ⟨c', ih, hc⟩ := ih
      rw [k1]
      rw [k7, flat_append, byteLen_append, ← Nat.add_assoc] at ih
      have := Division.variant k3 k4 k10 k9 hi ih (score := VariantResult.score x.f64 fw)
      simp only [picked, List.map_cons, divisionKey, k5, k6]
      rw [show e' - q = r.length by omega]
      refine ⟨_, this, ?_⟩
      obtain ⟨s1, s2⟩ := hscore _ _ k9 v (List.mem_of_getElem? hi)
      have hlt := hs.lt
      have ha := arc_close hclose hu hsmall s1 (s2.trans (by norm_num)) (n := r.length) (by omega)
      rw [List.length_append, Nat.cast_add, mul_add, add_sub_add_comm]
      exact (abs_add_le _ _).trans (add_le_add ha hc)
    · rw [k8] at hv
      cases hv
  | @unknown q l c m hm hs he _ ih =>
    obtain ⟨r, k1, k2, k3, k4, k5, k6, k7, k8⟩ := key m hm q (q + 1) hs
    have hlen : r.length = 1 := by omega
    obtain ⟨⟨w, s⟩, rfl⟩ := List.length_eq_one_iff.mp hlen
    rcases k8 with ⟨vs', k8, k9, k10⟩ | ⟨_, k8⟩
    · have hnil : vs' = [] := by
        simpa [Match.isEmpty, k8] using he
      subst hnil
      obtain ⟨c', ih, hc⟩ := ih
      rw [k1]
      rw [k7, flat_append, byteLen_append, ← Nat.add_assoc] at ih
      simp only [flat, List.append_nil] at ih
      have := Division.unknown k4 k9 ih (score := VariantResult.score x.f64 fw)
      simp only [picked, List.map_cons, divisionKey, k5, k6, stretch]
      refine ⟨_, this, ?_⟩
      rw [two_words hsmall, add_sub_add_left_eq_sub, List.length_append]
      refine hc.trans (mul_le_mul_of_nonneg_left ?_ (by linarith))
      push_cast
      linarith
    · exact absurd rfl k8

theorem division_route {x : TextExt} {u : Rat} (hclose : ∀ y, |x.f32.rnd y - y| ≤ u * max 1 |y|) (hu : u ≤ 1 / 1000)
    (hsmall : ∀ k : Int, |k| ≤ 2 → x.f32.rnd k = k) {fw : Rat}
    {found : List Char → List VariantResult → Prop} (hfun : ∀ t a b, found t a → found t b → a = b)
    (hscore : ∀ t vs, found t vs → ∀ v ∈ vs, 0 ≤ v.score x.f64 fw ∧ v.score x.f64 fw ≤ 191 / 100)
    {n o : Nat} (hn : 1 ≤ n) {g : List Seg} {all : List Match}
    (hall : Stretches found n o g all) {o' : Nat} {g' : List Seg} {l : List (Nat × List Char × Option Nat)}
    {c : Rat} (h : Division found VariantResult.distScore (VariantResult.score x.f64 fw) n o' g' l c)
    {a : List Seg} (ha : g = a ++ g') :
    ∃ l' c', Route x fw o g all a.length l' c' ∧ |c' - c| ≤ 7 * u * g'.length := by
  have hu0 : 0 ≤ u := by
    have := (abs_nonneg _).trans (hclose 0)
    simpa using this
  induction h generalizing a with
  | done =>
    rw [List.append_nil] at ha
    subst ha
    exact ⟨[], 0, .done, by simp⟩
  | @skip o' w s g' l c _ ih =>
    obtain ⟨l', c', h, hc⟩ := ih (a := a ++ [(w, s)]) (by rw [ha]; simp)
    rw [List.length_append, List.length_singleton] at h
    refine ⟨_, _, .skip (by rw [ha]; simp) h, ?_⟩
    rw [add_sub_add_left_eq_sub, List.length_cons]
    refine hc.trans (mul_le_mul_of_nonneg_left ?_ (by linarith))
    push_cast
    linarith
  | @variant o' r g' l c vs i v k1 k2 k3 k4 k5 _ ih =>
    obtain ⟨l', c', h, hc⟩ := ih (a := a ++ r) (by rw [ha]; simp)
    rw [List.length_append] at h
    have hg : g = a ++ r ++ g' := by rw [ha]; simp
    obtain ⟨vs', h1, h2⟩ := hall.complete a r g' hg k1 k2 k3
    obtain rfl := hfun _ _ _ h1 k4
    have hs := span_of_run (o := o) hg k2
    have := Route.variant (x := x) (fw := fw) h2
      ⟨hs.lt, hs.le, hs.text, hs.first, hs.last, hs.ne, hs.n⟩ rfl k5 h
    rw [show a.length + r.length - a.length = r.length by omega] at this
    refine ⟨_, _, this, ?_⟩
    obtain ⟨s1, s2⟩ := hscore _ _ k4 v (List.mem_of_getElem? k5)
    have hlen : 1 ≤ r.length := by
      rw [Nat.one_le_iff_ne_zero]
      intro h0
      rw [List.length_eq_zero_iff] at h0
      subst h0
      exact k2 rfl
    have hc' := arc_close hclose hu hsmall s1 (s2.trans (by norm_num)) hlen
    rw [List.length_append, Nat.cast_add, mul_add, add_sub_add_comm]
    exact (abs_add_le _ _).trans (add_le_add hc' hc)
  | @unknown o' w s g' l c k1 k2 _ ih =>
    obtain ⟨l', c', h, hc⟩ := ih (a := a ++ [(w, s)]) (by rw [ha]; simp)
    rw [List.length_append, List.length_singleton] at h
    have hg : g = a ++ [(w, s)] ++ g' := by rw [ha]; simp
    obtain ⟨vs', h1, h2⟩ := hall.complete a [(w, s)] g' hg hn k1 (.inl rfl)
    obtain rfl := hfun _ _ _ h1 k2
    have hs := span_of_run (o := o) (r := [(w, s)]) hg k1
    have := Route.unknown (x := x) (fw := fw) h2
      ⟨hs.lt, hs.le, hs.text, hs.first, hs.last, hs.ne, hs.n⟩ rfl h
    refine ⟨_, _, this, ?_⟩
    rw [two_words hsmall, add_sub_add_left_eq_sub, List.length_cons]
    refine hc.trans (mul_le_mul_of_nonneg_left ?_ (by linarith))
    push_cast
    linarith

theorem picked_from {x : TextExt} {fw : Rat} {o : Nat} {g : List Seg} {all : List Match}
    (hone : ∀ m ∈ all, m.n = 1 → m.variants.isSome) {q : Nat} {l : List Step} {c : Rat}
    (h : Route x fw o g all q l c) :
    ∀ m ∈ picked l, ∃ m0 ∈ all, m0.variants.isSome ∧ m.variants = m0.variants ∧ m.text = m0.text ∧
      m.first = m0.first ∧ m.last = m0.last := by
  induction h with
  | done => simp [picked]
  | skip _ _ ih => exact ih
  | variant hm _ hv _ _ ih =>
    intro m h
    rcases List.mem_cons.mp h with rfl | h
    · exact ⟨_, hm, by simp [hv], rfl, rfl, rfl, rfl⟩
    · exact ih m h
  | unknown hm hs _ _ ih =>
    intro m h
    rcases List.mem_cons.mp h with rfl | h
    · exact ⟨_, hm, hone _ hm (by rw [hs.n]; omega), rfl, rfl, rfl, rfl⟩
    · exact ih m h

/-- A batch has a word. -/
theorem IsBatch_word {isAlpha : Char → Bool} {g : List Seg} (hg : IsBatch isAlpha g) :
    ∃ a w s b, g = a ++ [(w, s)] ++ b ∧ w ≠ [] := by
  cases g with
  | nil => exact absurd rfl hg.word
  | cons p g =>
    obtain ⟨w, s⟩ := p
    cases g with
    | nil => exact ⟨[], w, s, [], rfl, hg.word⟩
    | cons p' g =>
      obtain ⟨w', s'⟩ := p'
      exact ⟨[(w, s)], w', s', g, by simp, hg.seg.words_ne (w', s') (by simp)⟩

/-! ## C97 -/

theorem division_nonneg {found : List Char → List VariantResult → Prop} {dist score : VariantResult → Rat}
    (hscore : ∀ t vs, found t vs → ∀ v ∈ vs, 0 ≤ score v ∧ score v ≤ 191 / 100) {n o : Nat} {g : List Seg}
    {l : List (Nat × List Char × Option Nat)} {c : Rat} (h : Division found dist score n o g l c) : 0 ≤ c := by
  induction h with
  | done => exact le_refl _
  | skip _ ih => linarith
  | @variant o r g l c vs i v h1 h2 h3 h4 h5 _ ih =>
    have hlen : 1 ≤ r.length := by
      rw [Nat.one_le_iff_ne_zero]
      intro h0
      rw [List.length_eq_zero_iff] at h0
      subst h0
      exact h2 rfl
    have hlen : (1 : Rat) ≤ r.length := by exact_mod_cast hlen
    have := (hscore _ _ h4 v (List.mem_of_getElem? h5)).2
    linarith
  | unknown _ _ _ ih => linarith

theorem slack_enough {r : Rounding} {u : Rat} (hu : u ≤ 1 / 1000) (hclose : ∀ y, |r.rnd y - y| ≤ u * max 1 |y|)
    {d : Nat → Rat} {n : Nat} (hd : 0 ≤ d (n + 1)) {c c' e e' : Rat} (he : 0 ≤ e) (he' : 0 ≤ e') (hn : (1 : Rat) ≤ n)
    (h1 : |c - e| ≤ 7 * u * n) (h2 : |c' - e'| ≤ 7 * u * n)
    (h : c - d (n + 1) * (1 + c) ≤ c' + d (n + 1) * (1 + c')) : e ≤ e' + slack u d n * (e + e' + n) := by
  have hu0 : 0 ≤ u := by
    have := (abs_nonneg _).trans (hclose 0)
    simpa using this
  unfold slack
  generalize d (n + 1) = δ at *
  rw [abs_le] at h1 h2
  have h3 : u * n ≤ 1 / 1000 * n := mul_le_mul_of_nonneg_right hu (by linarith)
  have h4 : δ * (c + c') ≤ δ * (e + e' + n) := mul_le_mul_of_nonneg_left (by linarith [h1.2, h2.2]) hd
  have h5 : δ * 1 ≤ δ * n := mul_le_mul_of_nonneg_left hn hd
  have h6 : 0 ≤ δ * (e + e') := mul_nonneg hd (by linarith)
  have h7 : 0 ≤ u * (e + e') := mul_nonneg hu0 (by linarith)
  linarith [h1.1, h2.2]

/-- **C97**, for variant scores between 0 and 2. -/
theorem search_cheapest_of_scores {vm : Vm} {x : TextExt} {cfg : TextConfig} {p : TextParams}
    {text : List Char} {segs : List Seg} {ms : List Match} (hsp : x.isAlpha ' ' = false)
    (hlm : vm.haveLm = false) (hr : cfg.contextRules = []) {u : Rat} {d : Nat → Rat}
    (hx : Reckons x p.variant.freqWeight u d) (hseq : 1 ≤ p.maxSeq)
    (hngram : 2 ≤ p.maxNgram) (hu : p.unicodeoffsets = false)
    (hscore : ∀ t vs, vm.findVariants x.toExt cfg.toConfig p.variant t = .ok vs → ∀ v ∈ vs,
      0 ≤ v.score x.f64 p.variant.freqWeight ∧ v.score x.f64 p.variant.freqWeight ≤ 191 / 100)
    (hi : vm.index.isEmpty = false) (hs : Segmented x.isAlpha text segs)
    (h : vm.findAllMatches x cfg p text = .ok ms) :
    (∃ ls, List.Forall₂ (fun b l => Cheapest (slack u d b.2.length)
        (fun t vs => vm.findVariants x.toExt cfg.toConfig p.variant t = .ok vs) VariantResult.distScore
        (VariantResult.score x.f64 p.variant.freqWeight) p.maxNgram b.1 b.2 l)
      (placed 0 (batches [] segs)) ls ∧
      ms.map (fun m => (m.first, m.text, m.selected)) = ls.flatten) ∧
    ∀ m ∈ ms, m.last = m.first + byteLen m.text ∧
      ∃ vs, m.variants = some vs ∧ vm.findVariants x.toExt cfg.toConfig p.variant m.text = .ok vs := by
  have hbatch : ∀ (pre post : List Char) (g : List Seg) (out : List Match), IsBatch x.isAlpha g →
      vm.batchMatches x cfg p (pre ++ flat g ++ post) (boundariesFrom (byteLen pre) g)
        (byteLen pre) (byteLen pre + byteLen (stretch g)) = .ok out →
      Cheapest (slack u d g.length) (fun t vs => vm.findVariants x.toExt cfg.toConfig p.variant t = .ok vs)
        VariantResult.distScore (VariantResult.score x.f64 p.variant.freqWeight) p.maxNgram
        (byteLen pre) g (out.map divisionKey) ∧
      ∀ m ∈ out, m.last = m.first + byteLen m.text ∧
        ∃ vs, m.variants = some vs ∧ vm.findVariants x.toExt cfg.toConfig p.variant m.text = .ok vs := by
    intro pre post g out hg hout
    unfold Vm.batchMatches at hout
    obtain ⟨all, h1, hout⟩ := bind_ok.mp hout
    rw [if_pos (.inl (by omega))] at hout
    obtain ⟨g1, g2⟩ := gathered_matches hsp hg h1
    have hall : Stretches (fun t vs => vm.findVariants x.toExt cfg.toConfig p.variant t = .ok vs)
        p.maxNgram (byteLen pre) g all := ⟨g1, g2⟩
    have hspan : ∀ m ∈ all, ∃ s e, Span (byteLen pre) g s e m := by
      intro m hm
      obtain ⟨a, r, b, f1, _, f3, v, rfl, _⟩ := g1 m hm
      have hs := span_of_run (o := byteLen pre) f1 f3
      exact ⟨_, _, hs.lt, hs.le, hs.text, hs.first, hs.last, hs.ne, hs.n⟩
    have hsc : ∀ m ∈ all, ∀ vs, m.variants = some vs → ∀ v ∈ vs,
        0 ≤ v.score x.f64 p.variant.freqWeight ∧ v.score x.f64 p.variant.freqWeight ≤ 191 / 100 := by
      intro m hm vs hvs
      obtain ⟨a, r, b, _, _, _, v, rfl, f4⟩ := g1 m hm
      rcases f4 with ⟨vs', rfl, f5, _⟩ | ⟨rfl, _⟩
      · cases hvs
        exact hscore _ _ f5
      · cases hvs
    obtain ⟨a, w, s, b, f1, f2⟩ := IsBatch_word hg
    obtain ⟨vs, _, hm⟩ := g2 a [(w, s)] b f1 (by simp; omega) f2 (.inl rfl)
    have hws := span_of_run (o := byteLen pre) (r := [(w, s)]) f1 f2
    obtain ⟨l, c, r1, r2, r3⟩ := nearly_cheapest_route hlm hr hx hseq hg
      hspan ⟨_, hm, a.length, vs, ⟨hws.lt, hws.le, hws.text, hws.first, hws.last, hws.ne, hws.n⟩, rfl⟩
      (fun m hm vs hvs v hv => (hsc m hm vs hvs v hv).2) hout
    subst r2
    constructor
    · obtain ⟨e, hdiv, he⟩ := route_division hx.close hx.unit hx.small hscore hg hall r1
      refine ⟨e, by simpa [flat, byteLen] using hdiv, ?_⟩
      intro l' e' hd
      obtain ⟨l'', c', hl, hc'⟩ := division_route hx.close hx.unit hx.small (fun t a b ha hb => by
        rw [ha] at hb; exact (Except.ok.inj hb)) hscore (by omega) hall hd (a := []) rfl
      have hle := r3 _ _ hl
      have h0 := division_nonneg hscore hdiv
      have h0' := division_nonneg hscore hd
      have hlen : (1 : Rat) ≤ g.length := by
        have := List.length_pos_iff.mpr hg.seg.ne
        exact_mod_cast this
      exact slack_enough hx.unit hx.close (hx.error _) h0 h0' hlen (by simpa using he) hc' hle
    · intro m hm
      obtain ⟨m0, hm0, k1, k2, k3, k4, k5⟩ := picked_from (by
        intro m hm h1
        obtain ⟨a, r, b, _, _, _, v, rfl, f4⟩ := g1 m hm
        rcases f4 with ⟨vs, rfl, _⟩ | ⟨_, f4⟩
        · rfl
        · exact absurd h1 f4) r1 m hm
      obtain ⟨a, r, b, _, _, _, v, rfl, f4⟩ := g1 m0 hm0
      rcases f4 with ⟨vs, rfl, f5, _⟩ | ⟨rfl, _⟩
      · exact ⟨by rw [k4, k5, k3]; rfl, vs, k2, by rw [k3]; exact f5⟩
      · cases k1
  have hrun : ∀ (gs : List (List Seg)) (pre post : List Char) (out : List Match),
      (∀ g ∈ gs, IsBatch x.isAlpha g) →
      Vm.batchesRun vm x cfg p (pre ++ flat gs.flatten ++ post) (byteLen pre) gs = .ok out →
      (∃ ls, List.Forall₂ (fun b l => Cheapest (slack u d b.2.length)
        (fun t vs => vm.findVariants x.toExt cfg.toConfig p.variant t = .ok vs) VariantResult.distScore
        (VariantResult.score x.f64 p.variant.freqWeight) p.maxNgram b.1 b.2 l)
      (placed (byteLen pre) gs) ls ∧ out.map divisionKey = ls.flatten) ∧
      ∀ m ∈ out, m.last = m.first + byteLen m.text ∧
        ∃ vs, m.variants = some vs ∧ vm.findVariants x.toExt cfg.toConfig p.variant m.text = .ok vs := by
    intro gs
    induction gs with
    | nil =>
      intro pre post out _ hout
      cases hout
      exact ⟨⟨[], .nil, rfl⟩, by simp⟩
    | cons g gs ih =>
      intro pre post out hg hout
      rw [List.flatten_cons, flat_append, Vm.batchesRun] at hout
      obtain ⟨a, h1, hout⟩ := bind_ok.mp hout
      obtain ⟨b, h2, hout⟩ := bind_ok.mp hout
      have := pure_ok.mp hout
      subst this
      have e1 : pre ++ (flat g ++ flat gs.flatten) ++ post =
          pre ++ flat g ++ (flat gs.flatten ++ post) := by simp
      have e2 : pre ++ (flat g ++ flat gs.flatten) ++ post =
          (pre ++ flat g) ++ flat gs.flatten ++ post := by simp
      rw [e1] at h1
      rw [e2, ← byteLen_append] at h2
      obtain ⟨c1, c2⟩ := hbatch _ _ _ _ (hg g (by simp)) h1
      obtain ⟨⟨ls, c3, c4⟩, c5⟩ := ih _ _ _ (fun g' h' => hg g' (by simp [h'])) h2
      rw [byteLen_append] at c3
      refine ⟨⟨_ :: ls, .cons c1 c3, by rw [List.map_append, c4, List.flatten_cons]⟩, ?_⟩
      intro m hm
      exact (List.mem_append.mp hm).elim (c2 m) (c5 m)
  by_cases hne : text = []
  · subst hne
    have hms : ms = [] := by
      rw [Vm.findAllMatches, if_pos rfl] at h
      exact (Except.ok.inj h).symm
    obtain ⟨hb, hf⟩ := batches_of hs
    have hb0 : batches [] segs = [] := by
      rcases hf with hf | hf
      · cases hbs : batches [] segs with
        | nil => rfl
        | cons g gs =>
          have hg := hb g (by simp [hbs])
          have ht := hs.text_eq
          rw [← hf, hbs, List.flatten_cons, flat_append, List.append_eq_nil_iff] at ht
          have := stretch_prefix_flat g
          rw [ht.1, List.prefix_nil] at this
          exact absurd this hg.word
      · exact hf.1
    rw [hms, hb0]
    exact ⟨⟨[], .nil, rfl⟩, by simp⟩
  rw [findAllMatches_eq vm x cfg p hne hi hs, hu] at h
  obtain ⟨ms', h1, h2⟩ := bind_ok.mp h
  have := pure_ok.mp h2
  subst this
  obtain ⟨hb, hf⟩ := batches_of hs
  rcases hf with hf | ⟨e1, s, e⟩
  · have := hrun (batches [] segs) [] [] ms' hb
    simp only [List.nil_append, List.append_nil, hf, hs.text_eq] at this
    exact this h1
  · rw [e1] at h1 ⊢
    cases h1
    exact ⟨⟨[], .nil, rfl⟩, by simp⟩

/-- **C97**: without language model and context rules, the matches found in a text divide each of its
batches at least cost: no other choice of stretches and variants is cheaper, by more than the errors of the
arithmetic.  Each match carries the variants of its text.  (Sane weights, link scores between 0 and 1, confusables
that raise a score by nine tenths at most; the solver returns a cheapest path, as far as it can tell, and first where
paths have one transition.) -/
theorem search_cheapest {vm : Vm} {x : TextExt} {cfg : TextConfig} {p : TextParams}
    {text : List Char} {segs : List Seg} {ms : List Match} (hsp : x.isAlpha ' ' = false)
    (hlm : vm.haveLm = false) (hr : cfg.contextRules = []) {u : Rat} {d : Nat → Rat}
    (hx : Reckons x p.variant.freqWeight u d) (hseq : 1 ≤ p.maxSeq)
    (hngram : 2 ≤ p.maxNgram) (hu : p.unicodeoffsets = false)
    (hwt : WeightsOk x.f64 cfg.weights) (hconf : MildConfusables x.f64 cfg.confusables)
    (hlinks : ∀ v ∈ vm.decoder, ∀ t s, VariantReference.variantOf t s ∈ v.variants.getD [] →
      0 ≤ s ∧ s ≤ 1) (hfw : 0 ≤ p.variant.freqWeight)
    (hi : vm.index.isEmpty = false) (hs : Segmented x.isAlpha text segs)
    (h : vm.findAllMatches x cfg p text = .ok ms) :
    (∃ ls, List.Forall₂ (fun b l => Cheapest (slack u d b.2.length)
        (fun t vs => vm.findVariants x.toExt cfg.toConfig p.variant t = .ok vs) VariantResult.distScore
        (VariantResult.score x.f64 p.variant.freqWeight) p.maxNgram b.1 b.2 l)
      (placed 0 (batches [] segs)) ls ∧
      ms.map (fun m => (m.first, m.text, m.selected)) = ls.flatten) ∧
    ∀ m ∈ ms, m.last = m.first + byteLen m.text ∧
      ∃ vs, m.variants = some vs ∧ vm.findVariants x.toExt cfg.toConfig p.variant m.text = .ok vs :=
  search_cheapest_of_scores hsp hlm hr hx hseq hngram hu
    (fun t vs hv v hm => variant_scores_le hx.close64 hx.unit hx.weight hwt hconf hlinks hfw t vs hv v hm) hi hs h

/-- **C97**, with exact arithmetic: no other choice of stretches and variants is cheaper. -/
theorem search_cheapest_exact {vm : Vm} {x : TextExt} {cfg : TextConfig} {p : TextParams}
    {text : List Char} {segs : List Seg} {ms : List Match} (hsp : x.isAlpha ' ' = false)
    (hlm : vm.haveLm = false) (hr : cfg.contextRules = []) (hsolve : SolverExact x.solve)
    (hsort : SolverFirst x.solve)
    (h32 : x.f32 = Rounding.exact) (h64 : x.f64 = Rounding.exact)
    (hln : ∀ a b, 0 < a → a < b → x.ln64 a < x.ln64 b) (hseq : 1 ≤ p.maxSeq)
    (hngram : 2 ≤ p.maxNgram) (hu : p.unicodeoffsets = false)
    (hwt : WeightsOk x.f64 cfg.weights) (hconf : MildConfusables x.f64 cfg.confusables)
    (hlinks : ∀ v ∈ vm.decoder, ∀ t s, VariantReference.variantOf t s ∈ v.variants.getD [] →
      0 ≤ s ∧ s ≤ 1) (hfw : 0 ≤ p.variant.freqWeight)
    (hi : vm.index.isEmpty = false) (hs : Segmented x.isAlpha text segs)
    (h : vm.findAllMatches x cfg p text = .ok ms) :
    ∃ ls, List.Forall₂ (fun b l => ∃ c,
        Division (fun t vs => vm.findVariants x.toExt cfg.toConfig p.variant t = .ok vs) VariantResult.distScore
          (VariantResult.score x.f64 p.variant.freqWeight) p.maxNgram b.1 b.2 l c ∧
        ∀ l' c', Division (fun t vs => vm.findVariants x.toExt cfg.toConfig p.variant t = .ok vs)
          VariantResult.distScore (VariantResult.score x.f64 p.variant.freqWeight) p.maxNgram b.1 b.2 l' c' → c ≤ c')
      (placed 0 (batches [] segs)) ls ∧
      ms.map (fun m => (m.first, m.text, m.selected)) = ls.flatten := by
  obtain ⟨⟨ls, h1, h2⟩, _⟩ := search_cheapest hsp hlm hr (exact_reckons hsolve hsort h32 h64 hln _) hseq hngram hu hwt
    hconf hlinks hfw hi hs h
  refine ⟨ls, h1.imp ?_, h2⟩
  intro b l ⟨c, h3, h4⟩
  refine ⟨c, h3, fun l' c' hd => ?_⟩
  have := h4 l' c' hd
  rw [slack_zero] at this
  linarith

/-- Two batches; in the second, two words in one match (at cost 2 + 5/8, where the two words on their own
cost 1 + 0 and 2). -/
example : plain.haveLm = false ∧ exTextConfig.contextRules = [] ∧ SolverExact exText.solve ∧
    SolverFirst exText.solve ∧ exText.f32 = .exact ∧ exText.f64 = .exact ∧
    (∀ a b, 0 < a → a < b → exText.ln64 a < exText.ln64 b) ∧ 2 ≤ exTextParams.maxNgram ∧
    plain.index.isEmpty = false ∧
    (∀ v ∈ plain.decoder, ∀ t s, VariantReference.variantOf t s ∈ v.variants.getD [] →
      0 ≤ s ∧ s ≤ 1) ∧
    placed 0 (batches [] [("ab".toList, " ".toList), ("ba".toList, ", ".toList), ("a".toList, "-".toList),
      ("x".toList, " ".toList), ("b".toList, [])]) =
      [(0, [("ab".toList, " ".toList), ("ba".toList, ", ".toList)]),
       (7, [("a".toList, "-".toList), ("x".toList, " ".toList), ("b".toList, [])])] ∧
    (plain.findAllMatches exText exTextConfig exTextParams "ab ba, a-x b".toList).toOption.map
      (·.map fun m => (m.first, m.text, m.selected)) = some [(0, "ab".toList, some 0),
        (3, "ba".toList, some 0), (7, "a-x".toList, some 0), (11, "b".toList, some 0)] := by
  refine ⟨by decide +kernel, rfl, refSolver_exact, refSolver_first, rfl, rfl, ?_, by decide, by decide +kernel,
    ?_, by decide +kernel, by decide +kernel⟩
  · intro a b _ h
    show a - 1 < b - 1
    linarith
  · have : ∀ v ∈ plain.decoder, v.variants.getD [] = [] := by decide +kernel
    intro v hv t s h
    rw [this v hv] at h
    cases h

/-- The same with confusables: `ab` has score 3/2. -/
example : MildConfusables exText.f64 mildConfig.confusables ∧ WeightsOk exText.f64 mildConfig.weights ∧
    plain.findVariants exText.toExt mildConfig exParams "ab".toList =
      .ok [⟨3, 3/2, 1, none⟩] ∧
    (plain.findAllMatches exText { mildConfig with contextRules := [] } exTextParams
      "ab ba, a-x b".toList).toOption.map
      (·.map fun m => (m.first, m.text, m.selected)) = some [(0, "ab".toList, some 0),
        (3, "ba".toList, some 0), (7, "a-x".toList, some 0), (11, "b".toList, some 0)] :=
  ⟨mildConfig_mild, exWeights_ok, by decide +kernel, by decide +kernel⟩

end Verif.Props
