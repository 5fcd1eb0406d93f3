import Verif.Spec.Reading
import Verif.Props.Division
import Verif.Props.Tags
import Mathlib.Data.List.Nodup

/-!
# Paths of the transducer are readings
-/
namespace Verif.Lemmas

open Verif.Spec Verif.Model Verif.Props

/-! ## The solver -/

theorem _root_.Verif.Spec.SolverBest.exact {solve : Fst → Nat → List FstPath} (h : SolverBest solve) :
    SolverExact solve where
  sound := fun f n π hp => by
    obtain ⟨tss, h1, h2, _⟩ := h f n
    rw [h1, List.mem_map] at hp
    obtain ⟨ts, h3, rfl⟩ := hp
    exact ⟨ts, h2 ts h3, rfl, rfl⟩
  best := fun f n ts hn hf ha => by
    obtain ⟨tss, h1, _, _, h4, _, h6⟩ := h f n
    by_cases hm : ts ∈ tss
    · exact ⟨_, by rw [h1]; exact List.mem_map.mpr ⟨ts, hm, rfl⟩, le_refl _⟩
    · obtain ⟨h7, h8⟩ := h6 hf ts ha hm
      obtain ⟨ts', h9⟩ := List.exists_mem_of_length_pos (l := tss) (by omega)
      exact ⟨_, by rw [h1]; exact List.mem_map.mpr ⟨ts', h9, rfl⟩, h8 ts' h9⟩

theorem _root_.Verif.Spec.SolverBest.first {solve : Fst → Nat → List FstPath} (h : SolverBest solve) :
    SolverFirst solve := by
  intro f n ts h2 hf ha π hπ
  obtain ⟨tss, h1, _, _, _, h5, h6⟩ := h f n
  rw [h1] at hπ
  cases tss with
  | nil => cases hπ
  | cons a tss =>
    cases hπ
    by_cases hm : ts ∈ a :: tss
    · exact h5 h2 a rfl ts hm
    · exact (h6 hf ts ha hm).2 a List.mem_cons_self

/-! ## Labels -/

/-- The transitions are labelled 1, 2, …, each label stands for a different match or variant, and only matches
before `i` have labels. -/
structure Labels (i : Nat) (syms : List OutputSymbol) (trs : List Tr) : Prop where
  labels : trs.map Tr.olabel = List.range' 1 trs.length
  length : syms.length = trs.length + 1
  symbol : ∀ (k : Nat) s, syms[k]? = some s → s.symbol = k
  before : ∀ s ∈ syms.tail, s.matchIndex < i
  keys : (syms.tail.map fun s => (s.matchIndex, s.variantIndex)).Nodup

theorem Labels.mono {i j : Nat} {syms : List OutputSymbol} {trs : List Tr} (h : Labels i syms trs)
    (hij : i ≤ j) : Labels j syms trs :=
  ⟨h.labels, h.length, h.symbol, fun s hs => Nat.lt_of_lt_of_le (h.before s hs) hij, h.keys⟩

theorem tail_concat {α : Type} {l : List α} (h : l ≠ []) (a : α) : (l ++ [a]).tail = l.tail ++ [a] := by
  cases l with
  | nil => exact absurd rfl h
  | cons b l => rfl

theorem Labels.push {i : Nat} {syms : List OutputSymbol} {trs : List Tr} (h : Labels i syms trs)
    {s : OutputSymbol} {t : Tr} (h1 : s.symbol = syms.length) (h2 : t.olabel = syms.length)
    (h3 : s.matchIndex < i)
    (h4 : ∀ s' ∈ syms.tail, (s'.matchIndex, s'.variantIndex) ≠ (s.matchIndex, s.variantIndex)) :
    Labels i (syms ++ [s]) (trs ++ [t]) := by
  have hne : syms ≠ [] := by
    rintro rfl
    have := h.length
    simp at this
  have ht := tail_concat hne s
  refine ⟨?_, by simp [h.length], ?_, ?_, ?_⟩
  · rw [List.map_append, h.labels, List.length_append, List.length_singleton, List.range'_concat]
    simp [h2, h.length, Nat.add_comm]
  · intro k s' hk
    rcases Nat.lt_or_ge k syms.length with c | c
    · rw [List.getElem?_append_left c] at hk
      exact h.symbol k s' hk
    · have hlt := (List.getElem?_eq_some_iff.mp hk).1
      rw [List.length_append, List.length_singleton] at hlt
      have : k = syms.length := by omega
      subst this
      rw [List.getElem?_concat_length] at hk
      cases hk
      exact h1
  · intro s' hs'
    rw [ht] at hs'
    rcases List.mem_append.mp hs' with hs' | hs'
    · exact h.before s' hs'
    · rw [List.mem_singleton] at hs'
      rw [hs']; exact h3
  · rw [ht, List.map_append, List.nodup_append]
    refine ⟨h.keys, by simp, ?_⟩
    intro a ha b hb
    obtain ⟨s', hs', rfl⟩ := List.mem_map.mp ha
    rw [List.map_singleton, List.mem_singleton] at hb
    rw [hb]
    exact h4 s' hs'

theorem variantTrs_labels {x : TextExt} {fw : Rat} {mi src next n : Nat} (vs : List VariantResult) :
    ∀ (vi : Nat) (syms : List OutputSymbol) (trs : List Tr) (syms' : List OutputSymbol) (trs' : List Tr),
      variantTrs x fw mi src next n vi vs syms trs = (syms', trs') → Labels (mi + 1) syms trs →
      (∀ s ∈ syms.tail, s.matchIndex = mi → ∀ k ∈ s.variantIndex, k < vi) →
      (∀ s ∈ syms.tail, s.matchIndex = mi → s.variantIndex ≠ none) →
      Labels (mi + 1) syms' trs' := by
  induction vs with
  | nil =>
    intro vi syms trs syms' trs' h hl _ _
    cases h
    exact hl
  | cons v vs ih =>
    intro vi syms trs syms' trs' h hl h1 h2
    have hne : syms ≠ [] := by
      rintro rfl
      have := hl.length
      simp at this
    refine ih (vi + 1) _ _ _ _ h (hl.push rfl rfl (Nat.lt_succ_self _) ?_) ?_ ?_
    · intro s' hs' e
      simp only [Prod.mk.injEq] at e
      exact absurd (h1 s' hs' e.1 vi (by rw [e.2]; rfl)) (Nat.lt_irrefl _)
    · intro s' hs' hm k hk
      rw [tail_concat hne] at hs'
      rcases List.mem_append.mp hs' with hs' | hs'
      · exact Nat.lt_succ_of_lt (h1 s' hs' hm k hk)
      · rw [List.mem_singleton] at hs'
        subst hs'
        cases hk
        exact Nat.lt_succ_self _
    · intro s' hs' hm
      rw [tail_concat hne] at hs'
      rcases List.mem_append.mp hs' with hs' | hs'
      · exact h2 s' hs' hm
      · rw [List.mem_singleton] at hs'
        subst hs'
        simp

theorem matchTrs_labels {x : TextExt} {fw : Rat} {bs : List Match} {mi : Nat} {m : Match}
    {syms syms' : List OutputSymbol} {trs trs' : List Tr}
    (h : matchTrs x fw bs mi m syms trs = .ok (syms', trs')) (hl : Labels mi syms trs) :
    Labels (mi + 1) syms' trs' := by
  unfold matchTrs at h
  obtain ⟨⟨src, next, n⟩, _, h⟩ := bind_ok.mp h
  have hl' := hl.mono (Nat.le_succ mi)
  dsimp only at h
  split at h
  · refine variantTrs_labels _ 0 _ _ _ _ (pure_ok.mp h) hl' ?_ ?_
    · intro s hs e
      exact absurd (hl.before s hs) (by omega)
    · intro s hs e
      exact absurd (hl.before s hs) (by omega)
  · split at h
    · cases pure_ok.mp h
      refine hl'.push rfl rfl (Nat.lt_succ_self _) ?_
      intro s' hs' e
      simp only [Prod.mk.injEq] at e
      exact absurd (hl.before s' hs') (by omega)
    · cases pure_ok.mp h
      exact hl'

theorem matchesTrs_labels {x : TextExt} {fw : Rat} {bs : List Match} (ms : List Match) :
    ∀ (i : Nat) (syms syms' : List OutputSymbol) (trs trs' : List Tr),
      matchesTrs x fw bs i ms syms trs = .ok (syms', trs') → Labels i syms trs →
      Labels (i + ms.length) syms' trs' := by
  induction ms with
  | nil =>
    intro i syms syms' trs trs' h hl
    cases h
    exact hl
  | cons m ms ih =>
    intro i syms syms' trs trs' h hl
    rw [matchesTrs] at h
    obtain ⟨⟨syms1, trs1⟩, h1, h⟩ := bind_ok.mp h
    have := ih (i + 1) _ _ _ _ h (matchTrs_labels h1 hl)
    rw [List.length_cons, Nat.add_comm ms.length, ← Nat.add_assoc]
    exact this

theorem buildFst_labels {x : TextExt} {fw : Rat} {all bs : List Match} {e n : Nat} {fs : List Nat}
    {trs : List Tr} {syms : List OutputSymbol}
    (h : buildFst x fw all bs e =
      .ok ({ states := n, finals := fs, trs := trs ++ epsilonTrs bs.length }, syms)) :
    Labels all.length syms trs := by
  unfold buildFst at h
  dsimp only at h
  split at h
  · cases h
  · obtain ⟨⟨syms1, trs1⟩, h1, h⟩ := bind_ok.mp h
    have := pure_ok.mp h
    simp only [Prod.mk.injEq, Fst.mk.injEq] at this
    obtain ⟨⟨_, _, h2⟩, rfl⟩ := this
    rw [List.append_left_inj] at h2
    subst h2
    have := matchesTrs_labels all 0 _ _ _ _ h1 (by
      refine ⟨rfl, rfl, ?_, by simp, by simp⟩
      intro k s hk
      cases k with
      | zero =>
        cases hk
        rfl
      | succ k => simp at hk)
    rwa [Nat.zero_add] at this

theorem Labels.unique {i : Nat} {syms : List OutputSymbol} {trs : List Tr} (h : Labels i syms trs)
    {t t' : Tr} (ht : t ∈ trs) (ht' : t' ∈ trs) (he : t.olabel = t'.olabel) : t = t' := by
  have hn : (trs.map Tr.olabel).Nodup := by
    rw [h.labels]
    exact List.nodup_range'
  exact List.inj_on_of_nodup_map hn ht ht' he

theorem trs_nodup {i k : Nat} {syms : List OutputSymbol} {trs : List Tr} (h : Labels i syms trs)
    (h0 : ∀ t ∈ trs, t.olabel ≠ 0) : (trs ++ epsilonTrs k).Nodup := by
  rw [List.nodup_append]
  refine ⟨?_, ?_, ?_⟩
  · refine List.Nodup.of_map Tr.olabel ?_
    rw [h.labels]
    exact List.nodup_range'
  · unfold epsilonTrs
    refine List.Nodup.map ?_ List.nodup_range
    intro a b e
    simp only [Tr.mk.injEq] at e
    exact e.1
  · intro a ha b hb e
    subst e
    unfold epsilonTrs at hb
    obtain ⟨j, _, rfl⟩ := List.mem_map.mp hb
    exact h0 _ ha rfl

/-- Symbols with the same match and variant have the same label. -/
theorem Labels.key_unique {i : Nat} {syms : List OutputSymbol} {trs : List Tr} (h : Labels i syms trs)
    {k k' : Nat} {s s' : OutputSymbol} (hk : syms[k]? = some s) (hk' : syms[k']? = some s') (h0 : k ≠ 0)
    (h0' : k' ≠ 0) (e1 : s.matchIndex = s'.matchIndex) (e2 : s.variantIndex = s'.variantIndex) : k = k' := by
  have mem : ∀ {k s}, syms[k]? = some s → k ≠ 0 → s ∈ syms.tail := by
    intro k s hk h0
    obtain ⟨k, rfl⟩ := Nat.exists_eq_succ_of_ne_zero h0
    rw [Nat.succ_eq_add_one, ← List.getElem?_tail] at hk
    exact List.mem_of_getElem? hk
  have := List.inj_on_of_nodup_map h.keys (mem hk h0) (mem hk' h0') (by rw [e1, e2])
  rw [← h.symbol k s hk, ← h.symbol k' s' hk', this]

/-! ## The matches are different -/

theorem runs_first {n o : Nat} {l : List Seg} {m : Match} (h : m ∈ runsFrom n o l) : o ≤ m.first ∧ m.n = n := by
  obtain ⟨a, r, b, _, h2, _, rfl⟩ := mem_runs h
  exact ⟨Nat.le_add_right _ _, h2⟩

theorem runs_increasing {n : Nat} {l : List Seg} (h : ∀ p ∈ l.dropLast, p.2 ≠ []) : ∀ o,
    (runsFrom n o l).Pairwise fun a b => a.first < b.first := by
  induction l with
  | nil => intro o; exact .nil
  | cons p l ih =>
    intro o
    rw [runsFrom, List.pairwise_append]
    cases l with
    | nil =>
      refine ⟨?_, ?_, ?_⟩
      · split <;> simp
      · simp [runsFrom]
      · simp [runsFrom]
    | cons q l =>
      refine ⟨by split <;> simp, ih (fun p' hp' => h p' (by simp [List.dropLast, hp'])) _, ?_⟩
      intro a ha b hb
      split at ha
      · rw [List.mem_singleton] at ha
        subst ha
        have h1 := (runs_first hb).1
        have h2 := byteLen_pos (h p (by simp [List.dropLast]))
        rw [byteLen_append] at h1
        show o < b.first
        omega
      · cases ha

/-- Where a match begins and how many words it has. -/
def placeKey (m : Match) : Nat × Nat := (m.first, m.n)

theorem gatherSegments_places {vm : Vm} {x : TextExt} {cfg : TextConfig} {p : TextParams}
    (hsp : x.isAlpha ' ' = false) {pre post : List Char} {g : List Seg}
    (hg : IsBatch x.isAlpha g) (n : Nat) : ∀ (order : Nat) (batch out : List Match), 1 ≤ order →
      vm.gatherSegments x cfg p (pre ++ flat g ++ post) (boundariesFrom (byteLen pre) g)
        (byteLen pre) (byteLen pre + byteLen (stretch g)) order n batch = .ok out →
      (batch.map placeKey).Nodup → (∀ m ∈ batch, m.n < order) → (out.map placeKey).Nodup := by
  induction n with
  | zero =>
    intro order batch out _ h hb _
    simp only [Vm.gatherSegments, Except.ok.injEq] at h
    exact h ▸ hb
  | succ n ih =>
    intro order batch out ho h hb hlt
    rw [Vm.gatherSegments, findMatchNgrams_eq hsp ho hg.seg.ne hg.seg] at h
    obtain ⟨segs, hf, h⟩ : ∃ segs, List.Forall₂ (fun s s' =>
        vm.processSegment x cfg p order batch s = .ok s') (runsFrom order (byteLen pre) g) segs ∧
        vm.gatherSegments x cfg p (pre ++ flat g ++ post) (boundariesFrom (byteLen pre) g)
          (byteLen pre) (byteLen pre + byteLen (stretch g)) (order + 1) n (batch ++ segs) = .ok out := by
      obtain ⟨_, hr, h⟩ := bind_ok.mp h
      cases hr
      split at h
      · obtain ⟨segs, h1, h⟩ := bind_ok.mp h
        exact ⟨segs, processSeq_ok.mp h1, h⟩
      · obtain ⟨segs, h1, h⟩ := bind_ok.mp h
        exact ⟨segs, processSeq_ok.mp ((processPar_perm (x.sched_perm _)).mp h1), h⟩
    have hkey : segs.map placeKey = (runsFrom order (byteLen pre) g).map placeKey := by
      clear h
      generalize runsFrom order (byteLen pre) g = runs at hf
      induction hf with
      | nil => rfl
      | cons h1 _ ih =>
        rw [List.map_cons, List.map_cons, ih]
        congr 1
        rcases (processSegment_looked h1).1 with rfl | ⟨v, _, rfl⟩ <;> rfl
    have hn : ∀ m ∈ segs, m.n = order := by
      intro m hm
      obtain ⟨run, hr, h1⟩ := mem_of_forall₂_right hf hm
      have := (runs_first hr).2
      rcases (processSegment_looked h1).1 with rfl | ⟨v, _, rfl⟩ <;> exact this
    refine ih (order + 1) _ out (by omega) h ?_ ?_
    · rw [List.map_append, List.nodup_append]
      refine ⟨hb, ?_, ?_⟩
      · rw [hkey]
        have := runs_increasing (n := order) hg.seg.seps_ne (byteLen pre)
        rw [List.Nodup, List.pairwise_map]
        refine this.imp ?_
        intro a b hab e
        simp only [placeKey, Prod.mk.injEq] at e
        omega
      · intro a ha b hb' e
        obtain ⟨m, hm, rfl⟩ := List.mem_map.mp ha
        obtain ⟨m', hm', rfl⟩ := List.mem_map.mp hb'
        simp only [placeKey, Prod.mk.injEq] at e
        have := hlt m hm
        have := hn m' hm'
        omega
    · intro m hm
      rcases List.mem_append.mp hm with hm | hm
      · have := hlt m hm
        omega
      · have := hn m hm
        omega

/-! ## Walks and readings -/

/-- The stretch of an output symbol. -/
def partOf (all bs : List Match) (s : OutputSymbol) : Part VariantResult :=
  match all[s.matchIndex]? with
  | none => ⟨0, [], none, []⟩
  | some m =>
    { offset := m.first, text := m.text, choice := s.variantIndex.bind fun i => m.variants.bind fun vs => (vs[i]?).map fun v => (i, v), sep := ((bs[s.boundaryIndex]?).map Match.text).getD [] }

theorem boundary_texts (o : Nat) (g : List Seg) : (boundariesFrom o g).map Match.text = g.map Prod.snd := by
  induction g generalizing o with
  | nil => rfl
  | cons p g ih => rw [boundariesFrom, List.map_cons, List.map_cons, ih]

theorem boundary_text {o k : Nat} {g a r b : List Seg} {w s : List Char} (h : g = a ++ (r ++ [(w, s)]) ++ b)
    (hk : k = a.length + r.length) : (((boundariesFrom o g)[k]?).map Match.text).getD [] = s := by
  rw [← List.getElem?_map, boundary_texts, h, hk]
  simp

/-- The words of a match. -/
theorem stretches_words {isAlpha : Char → Bool} {found : List Char → List VariantResult → Prop} {n o : Nat}
    {g : List Seg} {all : List Match} (hg : IsBatch isAlpha g) (hall : Stretches found n o g all)
    {m : Match} (hm : m ∈ all) {q e : Nat} (hs : Span o g q e m) :
    ∃ r w s, g = g.take q ++ (r ++ [(w, s)]) ++ g.drop e ∧ e = q + r.length + 1 ∧ r.length + 1 ≤ n ∧
      stretch (r ++ [(w, s)]) ≠ [] ∧ m.first = o + byteLen (flat (g.take q)) ∧ m.text = stretch (r ++ [(w, s)]) ∧
      ((∃ vs, m.variants = some vs ∧ found (stretch (r ++ [(w, s)])) vs ∧
          LookedUp found VariantResult.distScore (r ++ [(w, s)])) ∨
        (m.variants = none ∧ r ≠ [])) := by
  obtain ⟨a, r, b, f1, f2, f3, v, rfl, f4⟩ := hall.sound m hm
  have hs' := span_of_run (o := o) f1 f3
  have hq : q = a.length := span_starts hg hs hs' rfl
  subst hq
  have hn : r.length = e - a.length := hs.n
  have he : e = a.length + r.length := by
    have := hs.lt
    omega
  subst he
  rcases List.eq_nil_or_concat r with rfl | ⟨r, ⟨w, s⟩, rfl⟩
  · exact absurd rfl f3
  rw [List.concat_eq_append] at *
  have t1 : g.take a.length = a := by rw [f1, List.append_assoc, List.take_left]
  have t3 : g.drop (a.length + (r ++ [(w, s)]).length) = b := by rw [f1, List.drop_left' (by simp)]
  refine ⟨r, w, s, by rw [t1, t3]; exact f1, by simp [Nat.add_assoc], by simpa using f2, f3, by rw [t1]; rfl, rfl, ?_⟩
  rcases f4 with ⟨vs, rfl, h1, h2⟩ | ⟨rfl, h1⟩
  · exact .inl ⟨vs, rfl, h1, h2⟩
  · refine .inr ⟨rfl, ?_⟩
    rintro rfl
    exact h1 rfl

theorem isEmpty_variants {m : Match} {vs : List VariantResult} (h : m.isEmpty = true) (hv : m.variants = some vs) :
    vs = [] := by
  simpa [Match.isEmpty, hv] using h

theorem walk_reading {x : TextExt} (h32 : x.f32 = Rounding.exact) {fw : Rat}
    {found : List Char → List VariantResult → Prop} {n o : Nat} {g : List Seg} {all : List Match}
    (hg : IsBatch x.isAlpha g) (hall : Stretches found n o g all) {syms : List OutputSymbol} {trs : List Tr}
    (ht : ∀ t ∈ trs, TrOk x fw o g all syms t) (ts : List Tr) : ∀ q,
      Walk (trs ++ epsilonTrs g.length) q ts g.length →
      ∃ os, lookupSymbols syms (outputs ts) = .ok os ∧
        Reading found VariantResult.distScore (VariantResult.score x.f64 fw) n (o + byteLen (flat (g.take q)))
          (g.drop q) (os.map (partOf all (boundariesFrom o g))) (ts.map Tr.cost).sum := by
  have e : ∀ y, x.f32.rnd y = y := by intro y; rw [h32]; rfl
  induction ts with
  | nil =>
    intro q h
    cases h
    refine ⟨[], rfl, ?_⟩
    rw [List.drop_length]
    exact .done
  | cons t ts ih =>
    intro q hw
    obtain ⟨h1, h2, h3⟩ := hw
    obtain ⟨os, h4, h5⟩ := ih t.dst h3
    rw [List.mem_append] at h1
    rcases h1 with h1 | h1
    · obtain ⟨sym, m, a1, a2, a3, a4, a5, a6⟩ := ht t h1
      have ho : outputs (t :: ts) = t.olabel :: outputs ts := by
        simp [outputs, a1]
      refine ⟨sym :: os, ?_, ?_⟩
      · rw [ho, lookupSymbols, a2]
        simp only [bind, Except.bind, h4, pure, Except.pure]
      · obtain ⟨r, w, s, k1, k2, k3, k4, k5, k6, k7⟩ := stretches_words hg hall (List.mem_of_getElem? a3) a4
        rw [h2] at k1 k2 k5 a6
        have hql : (g.take q).length = q := by
          rw [List.length_take]
          have := a4.le
          have := a4.lt
          omega
        have hsep := boundary_text (o := o) (k := sym.boundaryIndex) k1 (by rw [hql]; omega)
        have hd : g.drop q = (r ++ [(w, s)]) ++ g.drop t.dst := by
          have := congrArg (List.drop q) k1
          rw [List.append_assoc, List.drop_left' hql] at this
          exact this
        have htk : g.take t.dst = g.take q ++ (r ++ [(w, s)]) := by
          have := congrArg (List.take t.dst) k1
          rwa [List.take_left' (by rw [List.length_append, hql]; simp; omega)] at this
        rw [htk, flat_append, byteLen_append, ← Nat.add_assoc] at h5
        rw [List.map_cons, List.map_cons, List.sum_cons, hd]
        rcases a6 with ⟨vi, vs, v, c1, c2, c3, _, c5⟩ | ⟨c1, c2, _, c4, c5⟩
        · rcases k7 with ⟨vs', k7, k8, k9⟩ | ⟨k7, _⟩
          · rw [k7] at c2
            cases c2
            have hp : partOf all (boundariesFrom o g) sym =
                ⟨o + byteLen (flat (g.take q)), stretch (r ++ [(w, s)]), some (vi, v), s⟩ := by
              unfold partOf
              rw [a3]
              simp only [c1, k7, hsep, k5, k6, Option.bind_some, c3, Option.map_some]
            rw [hp, c5]
            simp only [e]
            rw [show t.dst - q = r.length + 1 by omega]
            exact .variant k3 k4 k9 k8 c3 h5
          · rw [k7] at c2
            cases c2
        · have hr : r = [] := List.eq_nil_of_length_eq_zero (by omega)
          subst hr
          rcases k7 with ⟨vs', k7, k8, k9⟩ | ⟨_, k7⟩
          · have hnil := isEmpty_variants c2 k7
            subst hnil
            have hp : partOf all (boundariesFrom o g) sym =
                ⟨o + byteLen (flat (g.take q)), w, none, s⟩ := by
              unfold partOf
              rw [a3]
              simp only [c1, hsep, k5, k6, Option.bind_none]
              rfl
            rw [hp, c5]
            simp only [e]
            have h2' : ((1 : Nat) : Rat) + 1 = 2 := by norm_num
            rw [h2']
            simp only [List.nil_append, flat, List.append_nil] at h5
            exact .unknown k4 k8 h5
          · exact absurd rfl k7
    · unfold epsilonTrs at h1
      rw [List.mem_map] at h1
      obtain ⟨j, hj, rfl⟩ := h1
      rw [List.mem_range] at hj
      simp only at h2 h5
      subst h2
      have ho : outputs (({ src := j, ilabel := 0, olabel := 0, cost := 100, dst := j + 1 } : Tr) :: ts) =
          outputs ts := by simp [outputs]
      rw [ho, List.map_cons, List.sum_cons, List.drop_eq_getElem_cons hj]
      rw [← List.take_concat_get' g j hj, flat_append, byteLen_append, ← Nat.add_assoc] at h5
      refine ⟨os, h4, ?_⟩
      generalize g[j] = p at h5 ⊢
      obtain ⟨w, s⟩ := p
      simp only [flat, List.append_nil] at h5
      exact .skip h5

theorem reading_walk {x : TextExt} (h32 : x.f32 = Rounding.exact) {fw : Rat}
    {found : List Char → List VariantResult → Prop} (hfun : ∀ t a b, found t a → found t b → a = b)
    {n o : Nat} (hn : 1 ≤ n) {g : List Seg} {all : List Match} (hall : Stretches found n o g all)
    {syms : List OutputSymbol} {trs : List Tr} (ht : ∀ t ∈ trs, TrOk x fw o g all syms t)
    (hh : ∀ (j : Nat) m s e, all[j]? = some m → Span o g s e m → HasTrs syms trs j s e m)
    {o' : Nat} {g' : List Seg} {l : List (Part VariantResult)} {c : Rat}
    (h : Reading found VariantResult.distScore (VariantResult.score x.f64 fw) n o' g' l c)
    {a : List Seg} (ha : g = a ++ g') (ho : o' = o + byteLen (flat a)) :
    ∃ ts os, Walk (trs ++ epsilonTrs g.length) a.length ts g.length ∧ (ts.map Tr.cost).sum = c ∧
      lookupSymbols syms (outputs ts) = .ok os ∧ os.map (partOf all (boundariesFrom o g)) = l := by
  have e : ∀ y, x.f32.rnd y = y := by intro y; rw [h32]; rfl
  induction h generalizing a with
  | done =>
    rw [List.append_nil] at ha
    subst ha
    exact ⟨[], [], rfl, rfl, rfl, rfl⟩
  | @skip o' w s g' l c _ ih =>
    obtain ⟨ts, os, i1, i2, i3, i4⟩ := ih (a := a ++ [(w, s)]) (by rw [ha]; simp)
      (by rw [ho, flat_append a, byteLen_append (flat a), Nat.add_assoc]; simp [flat])
    rw [List.length_append, List.length_singleton] at i1
    refine ⟨{ src := a.length, ilabel := 0, olabel := 0, cost := 100, dst := a.length + 1 } :: ts, os,
      ⟨?_, rfl, i1⟩, ?_, ?_, i4⟩
    · rw [List.mem_append]; right
      unfold epsilonTrs
      rw [List.mem_map]
      exact ⟨a.length, List.mem_range.mpr (by rw [ha]; simp), rfl⟩
    · rw [List.map_cons, List.sum_cons, i2]
    · exact i3
  | @variant o' r w s g' l c vs i v k1 k2 k3 k4 k5 _ ih =>
    obtain ⟨ts, os, i1, i2, i3, i4⟩ := ih (a := a ++ (r ++ [(w, s)])) (by rw [ha]; simp)
      (by rw [ho, flat_append a, byteLen_append (flat a), Nat.add_assoc])
    rw [List.length_append] at i1
    have hgr : g = a ++ (r ++ [(w, s)]) ++ g' := by rw [ha]; simp
    obtain ⟨vs', h1, h2⟩ := hall.complete a _ g' hgr (by simpa using k1) k2 k3
    obtain rfl := hfun _ _ _ h1 k4
    have hs := span_of_run (o := o) hgr k2
    obtain ⟨j, hj⟩ := List.mem_iff_getElem?.mp h2
    obtain ⟨t, t1, sym, t2, t3, t4, t5, t6⟩ := (hh j _ _ _ hj
      ⟨hs.lt, hs.le, hs.text, hs.first, hs.last, hs.ne, hs.n⟩).1 vs' i v rfl k5
    obtain ⟨sym', m', b1, b2, b3, _, b5, b6⟩ := ht t t1
    rw [t2] at b2; cases b2
    rw [t3, hj] at b3; cases b3
    have hot : outputs (t :: ts) = t.olabel :: outputs ts := by
      simp [outputs, b1]
    refine ⟨t :: ts, sym :: os, ⟨by simp [t1], t5, by rw [t6]; exact i1⟩, ?_, ?_, ?_⟩
    · rw [List.map_cons, List.sum_cons, i2]
      rcases b6 with ⟨vi, vs', v', c1, c2, c3, _, c5⟩ | ⟨c1, _⟩
      · rw [t4] at c1; cases c1
        cases c2
        rw [k5] at c3; cases c3
        rw [c5, t5, t6]
        simp only [e]
        rw [show a.length + (r ++ [(w, s)]).length - a.length = r.length + 1 by simp]
      · rw [t4] at c1; cases c1
    · rw [hot, lookupSymbols, t2]
      simp only [bind, Except.bind, i3, pure, Except.pure]
    · rw [List.map_cons, i4]
      congr 1
      have hsep := boundary_text (o := o) (k := sym.boundaryIndex) hgr (by
        rw [t6] at b5
        simp at b5
        omega)
      unfold partOf
      rw [t3, hj]
      simp only [t4, hsep, Option.bind_some, k5, Option.map_some]
      rw [ho]
      rfl
  | @unknown o' w s g' l c k1 k2 _ ih =>
    obtain ⟨ts, os, i1, i2, i3, i4⟩ := ih (a := a ++ [(w, s)]) (by rw [ha]; simp)
      (by rw [ho, flat_append a, byteLen_append (flat a), Nat.add_assoc]; simp [flat])
    rw [List.length_append, List.length_singleton] at i1
    have hgr : g = a ++ ([] ++ [(w, s)]) ++ g' := by rw [ha]; simp
    obtain ⟨vs', h1, h2⟩ := hall.complete a [(w, s)] g' hgr hn k1 (.inl rfl)
    obtain rfl := hfun _ _ _ h1 k2
    have hs := span_of_run (o := o) (r := [(w, s)]) hgr k1
    obtain ⟨j, hj⟩ := List.mem_iff_getElem?.mp h2
    obtain ⟨t, t1, sym, t2, t3, t4, t5, t6⟩ := (hh j _ _ _ hj
      ⟨hs.lt, hs.le, hs.text, hs.first, hs.last, hs.ne, hs.n⟩).2 rfl rfl
    obtain ⟨sym', m', b1, b2, b3, _, b5, b6⟩ := ht t t1
    rw [t2] at b2; cases b2
    rw [t3, hj] at b3; cases b3
    have hot : outputs (t :: ts) = t.olabel :: outputs ts := by
      simp [outputs, b1]
    refine ⟨t :: ts, sym :: os, ⟨by simp [t1], t5, by rw [t6]; exact i1⟩, ?_, ?_, ?_⟩
    · rw [List.map_cons, List.sum_cons, i2]
      rcases b6 with ⟨vi, vs', v', c1, c2, c3, _, c5⟩ | ⟨_, _, _, _, c5⟩
      · rw [t4] at c1; cases c1
      · rw [c5]
        simp only [e]
        have h3 : ((1 : Nat) : Rat) + 1 = 2 := by norm_num
        rw [h3]
    · rw [hot, lookupSymbols, t2]
      simp only [bind, Except.bind, i3, pure, Except.pure]
    · rw [List.map_cons, i4]
      congr 1
      have hsep := boundary_text (o := o) (k := sym.boundaryIndex) hgr (by
        rw [t6] at b5
        simp at b5
        simpa using b5)
      unfold partOf
      rw [t3, hj]
      simp only [t4, hsep, Option.bind_none]
      rw [ho]
      rfl

/-! ## Different walks are different readings -/

theorem walk_le {k : Nat} {trs : List Tr} (hf : ∀ t ∈ trs, t.src < t.dst) (ts : List Tr) {q q' : Nat}
    (h : Walk (trs ++ epsilonTrs k) q ts q') : (∀ t ∈ ts, q ≤ t.src) := by
  have hf' : ∀ t ∈ trs ++ epsilonTrs k, t.src < t.dst := by
    intro t ht
    rcases List.mem_append.mp ht with ht | ht
    · exact hf t ht
    · unfold epsilonTrs at ht
      obtain ⟨j, _, rfl⟩ := List.mem_map.mp ht
      simp
  induction ts generalizing q with
  | nil => simp
  | cons t ts ih =>
    obtain ⟨h1, h2, h3⟩ := h
    intro u hu
    rcases List.mem_cons.mp hu with rfl | hu
    · omega
    · have := ih h3 u hu
      have := hf' t h1
      omega

theorem walk_outputs {i k : Nat} {syms : List OutputSymbol} {trs : List Tr} (h : Labels i syms trs)
    (h0 : ∀ t ∈ trs, t.olabel ≠ 0) (hf : ∀ t ∈ trs, t.src < t.dst) (ts : List Tr) : ∀ (ts' : List Tr) (q q' : Nat),
      Walk (trs ++ epsilonTrs k) q ts q' → Walk (trs ++ epsilonTrs k) q ts' q' →
      outputs ts = outputs ts' → ts = ts' := by
  have hf' : ∀ t ∈ trs ++ epsilonTrs k, t.src < t.dst := by
    intro t ht
    rcases List.mem_append.mp ht with ht | ht
    · exact hf t ht
    · unfold epsilonTrs at ht
      obtain ⟨j, _, rfl⟩ := List.mem_map.mp ht
      simp
  have hne : ∀ (t : Tr) (ts : List Tr) (q : Nat), Walk (trs ++ epsilonTrs k) q (t :: ts) q → False := by
    intro t ts q hw
    have hle : ∀ (ts : List Tr) (q q' : Nat), Walk (trs ++ epsilonTrs k) q ts q' → q ≤ q' := by
      intro ts
      induction ts with
      | nil => intro q q' h; exact Nat.le_of_eq h
      | cons t ts ih =>
        intro q q' h
        have := ih _ _ h.2.2
        have := hf' t h.1
        have := h.2.1
        omega
    have := hle _ _ _ hw.2.2
    have := hf' t hw.1
    have := hw.2.1
    omega
  have eps : ∀ t ∈ trs ++ epsilonTrs k, t.olabel = 0 →
      t = { src := t.src, ilabel := 0, olabel := 0, cost := 100, dst := t.src + 1 } := by
    intro t ht h1
    rcases List.mem_append.mp ht with ht | ht
    · exact absurd h1 (h0 t ht)
    · unfold epsilonTrs at ht
      obtain ⟨j, _, rfl⟩ := List.mem_map.mp ht
      rfl
  have lab : ∀ t ∈ trs ++ epsilonTrs k, t.olabel ≠ 0 → t ∈ trs := by
    intro t ht h1
    rcases List.mem_append.mp ht with ht | ht
    · exact ht
    · unfold epsilonTrs at ht
      obtain ⟨j, _, rfl⟩ := List.mem_map.mp ht
      exact absurd rfl h1
  -- a label at the front cannot come from a transition further on
  have front : ∀ (t u : Tr) (ts us : List Tr) (q q' : Nat), Walk (trs ++ epsilonTrs k) q (t :: ts) q' →
      Walk (trs ++ epsilonTrs k) q (u :: us) q' → t.olabel = 0 → u.olabel ≠ 0 →
      outputs (t :: ts) = outputs (u :: us) → False := by
    intro t u ts us q q' ht hu h1 h2 h3
    have e1 : outputs (t :: ts) = outputs ts := by simp [outputs, h1]
    have e2 : outputs (u :: us) = u.olabel :: outputs us := by simp [outputs, h2]
    rw [e1, e2] at h3
    have hmem : u.olabel ∈ outputs ts := by rw [h3]; simp
    unfold outputs at hmem
    rw [List.mem_filter, List.mem_map] at hmem
    obtain ⟨⟨t', m1, m2⟩, _⟩ := hmem
    have m3 := walk_mem ht.2.2 t' m1
    have m4 : t' = u := h.unique (lab t' m3 (by rw [m2]; exact h2)) (lab u hu.1 h2) m2
    have m5 := walk_le hf ts ht.2.2 t' m1
    rw [m4, hu.2.1] at m5
    have := hf' t ht.1
    have := ht.2.1
    omega
  induction ts with
  | nil =>
    intro ts' q q' h1 h2 _
    cases ts' with
    | nil => rfl
    | cons t ts' =>
      cases h1
      exact (hne _ _ _ h2).elim
  | cons t ts ih =>
    intro ts' q q' h1 h2 h3
    cases ts' with
    | nil =>
      cases h2
      exact (hne _ _ _ h1).elim
    | cons u us =>
      by_cases c1 : t.olabel = 0
      · by_cases c2 : u.olabel = 0
        · have e : t = u := by
            rw [eps t h1.1 c1, eps u h2.1 c2, h1.2.1, h2.2.1]
          subst e
          have e1 : outputs (t :: ts) = outputs ts := by simp [outputs, c1]
          have e2 : outputs (t :: us) = outputs us := by simp [outputs, c1]
          rw [e1, e2] at h3
          rw [ih us _ _ h1.2.2 h2.2.2 h3]
        · exact (front t u ts us q q' h1 h2 c1 c2 h3).elim
      · by_cases c2 : u.olabel = 0
        · exact (front u t us ts q q' h2 h1 c2 c1 h3.symm).elim
        · have e1 : outputs (t :: ts) = t.olabel :: outputs ts := by simp [outputs, c1]
          have e2 : outputs (u :: us) = u.olabel :: outputs us := by simp [outputs, c2]
          rw [e1, e2, List.cons.injEq] at h3
          have e : t = u := h.unique (lab t h1.1 c1) (lab u h2.1 c2) h3.1
          subst e
          rw [ih us _ _ h1.2.2 h2.2.2 h3.2]

theorem span_unique {isAlpha : Char → Bool} {g : List Seg} (hg : IsBatch isAlpha g) {o s e s' e' : Nat}
    {m m' : Match} (h : Span o g s e m) (h' : Span o g s' e' m') (hf : m.first = m'.first)
    (hl : m.last = m'.last) : s = s' ∧ e = e' := by
  refine ⟨span_starts hg h h' hf, ?_⟩
  have h1 := h.lt
  have h2 := h.le
  have h3 := h'.lt
  have h4 := h'.le
  rw [h.last, h'.last] at hl
  rcases Nat.lt_trichotomy e e' with c | c | c
  · have := hg.stretch_lt (by omega) c (by omega)
    omega
  · exact c
  · have := hg.stretch_lt (by omega) c (by omega)
    omega

/-- The label of a stretch. -/
theorem part_label {x : TextExt} {fw : Rat} {found : List Char → List VariantResult → Prop} {n o : Nat}
    {g : List Seg} {all : List Match} (hg : IsBatch x.isAlpha g) (hall : Stretches found n o g all)
    (hplace : (all.map placeKey).Nodup) {syms : List OutputSymbol} {trs : List Tr}
    (ht : ∀ t ∈ trs, TrOk x fw o g all syms t) (hlab : Labels all.length syms trs) {t t' : Tr}
    (h : t ∈ trs) (h' : t' ∈ trs) {s s' : OutputSymbol} (hs : syms[t.olabel]? = some s)
    (hs' : syms[t'.olabel]? = some s')
    (he : partOf all (boundariesFrom o g) s = partOf all (boundariesFrom o g) s') :
    t.olabel = t'.olabel := by
  obtain ⟨_, m, a1, a2, a3, a4, a5, a6⟩ := ht t h
  rw [hs] at a2; cases a2
  obtain ⟨_, m', b1, b2, b3, b4, b5, b6⟩ := ht t' h'
  rw [hs'] at b2; cases b2
  have hchoice : ∀ {t : Tr} {s : OutputSymbol} {m : Match}, all[s.matchIndex]? = some m →
      ((∃ vi vs v, s.variantIndex = some vi ∧ m.variants = some vs ∧ vs[vi]? = some v ∧
        s.vocabId = v.vocabId ∧
        t.cost = x.f32.rnd (x.f32.rnd (t.dst - t.src : Nat) +
          x.f32.rnd (1 - x.f32.rnd (v.score x.f64 fw)))) ∨
      (s.variantIndex = none ∧ m.isEmpty = true ∧ s.vocabId = 0 ∧ t.dst = t.src + 1 ∧
        t.cost = x.f32.rnd (x.f32.rnd (1 : Nat) + 1))) →
      s.variantIndex = (partOf all (boundariesFrom o g) s).choice.map Prod.fst ∧
        m.first = (partOf all (boundariesFrom o g) s).offset ∧
        m.text = (partOf all (boundariesFrom o g) s).text := by
    intro t s m h3 h6
    unfold partOf
    rw [h3]
    refine ⟨?_, rfl, rfl⟩
    rcases h6 with ⟨vi, vs, v, c1, c2, c3, _⟩ | ⟨c1, _⟩
    · simp [c1, c2, c3]
    · simp [c1]
  obtain ⟨p1, p2, p3⟩ := hchoice a3 a6
  obtain ⟨q1, q2, q3⟩ := hchoice b3 b6
  rw [← he] at q1 q2 q3
  have hvi : s.variantIndex = s'.variantIndex := by rw [p1, q1]
  have hlast : ∀ m ∈ all, m.last = m.first + byteLen m.text := by
    intro m hm
    obtain ⟨a, r, b, _, _, _, v, rfl, _⟩ := hall.sound m hm
    rfl
  have hfirst : m.first = m'.first := by rw [p2, q2]
  have hl : m.last = m'.last := by
    rw [hlast m (List.mem_of_getElem? a3), hlast m' (List.mem_of_getElem? b3), hfirst, p3, q3]
  obtain ⟨e1, e2⟩ := span_unique hg a4 b4 hfirst hl
  have hn : m.n = m'.n := by rw [a4.n, b4.n, e1, e2]
  have hmi : s.matchIndex = s'.matchIndex := by
    have k1 : (all.map placeKey)[s.matchIndex]? = some (placeKey m) := by rw [List.getElem?_map, a3]; rfl
    have k2 : (all.map placeKey)[s'.matchIndex]? = some (placeKey m) := by
      rw [List.getElem?_map, b3]
      simp [placeKey, hfirst, hn]
    obtain ⟨l1, k1⟩ := List.getElem?_eq_some_iff.mp k1
    obtain ⟨l2, k2⟩ := List.getElem?_eq_some_iff.mp k2
    exact (hplace.getElem_inj_iff).mp (k1.trans k2.symm)
  exact hlab.key_unique hs hs' a1 b1 hmi hvi

theorem lookupSymbols_mapped {syms : List OutputSymbol} {ls : List Nat} {os : List OutputSymbol} :
    lookupSymbols syms ls = .ok os ↔ List.Forall₂ (fun l s => syms[l]? = some s) ls os := by
  induction ls generalizing os with
  | nil =>
    constructor
    · intro h; cases h; exact .nil
    · intro h; cases h; rfl
  | cons l ls ih =>
    rw [lookupSymbols]
    constructor
    · intro h
      split at h
      · cases h
      · next s hs =>
        obtain ⟨os', h1, h⟩ := bind_ok.mp h
        cases pure_ok.mp h
        exact .cons hs (ih.mp h1)
    · intro h
      cases h with
      | cons h1 h2 =>
        rw [h1]
        exact bind_ok.mpr ⟨_, ih.mpr h2, rfl⟩

/-- Different paths are different readings. -/
theorem walk_parts {x : TextExt} {fw : Rat} {found : List Char → List VariantResult → Prop} {n o : Nat}
    {g : List Seg} {all : List Match} (hg : IsBatch x.isAlpha g) (hall : Stretches found n o g all)
    (hplace : (all.map placeKey).Nodup) {syms : List OutputSymbol} {trs : List Tr}
    (ht : ∀ t ∈ trs, TrOk x fw o g all syms t) (hlab : Labels all.length syms trs) {k q q' : Nat}
    {ts ts' : List Tr} (h : Walk (trs ++ epsilonTrs k) q ts q') (h' : Walk (trs ++ epsilonTrs k) q ts' q')
    {os os' : List OutputSymbol} (ho : lookupSymbols syms (outputs ts) = .ok os)
    (ho' : lookupSymbols syms (outputs ts') = .ok os')
    (he : os.map (partOf all (boundariesFrom o g)) = os'.map (partOf all (boundariesFrom o g))) : ts = ts' := by
  have h0 : ∀ t ∈ trs, t.olabel ≠ 0 := by
    intro t h
    obtain ⟨_, _, h1, _⟩ := ht t h
    exact h1
  have hf : ∀ t ∈ trs, t.src < t.dst := by
    intro t h
    obtain ⟨_, _, _, _, _, h1, _⟩ := ht t h
    exact h1.lt
  refine walk_outputs hlab h0 hf ts ts' q q' h h' ?_
  have mem : ∀ {ts : List Tr} {q q' : Nat}, Walk (trs ++ epsilonTrs k) q ts q' → ∀ l ∈ outputs ts,
      ∃ t ∈ trs, t.olabel = l := by
    intro ts q q' hw l hl
    unfold outputs at hl
    rw [List.mem_filter, List.mem_map] at hl
    obtain ⟨⟨t, h2, rfl⟩, h3⟩ := hl
    refine ⟨t, ?_, rfl⟩
    rcases List.mem_append.mp (walk_mem hw t h2) with h4 | h4
    · exact h4
    · unfold epsilonTrs at h4
      obtain ⟨j, _, rfl⟩ := List.mem_map.mp h4
      simp at h3
  have m1 := mem h
  have m2 := mem h'
  rw [lookupSymbols_mapped] at ho ho'
  clear h h' mem
  generalize outputs ts = ls at *
  generalize outputs ts' = ls' at *
  induction ho generalizing os' ls' with
  | nil =>
    cases ho' with
    | nil => rfl
    | cons _ _ => cases he
  | cons a1 _ ih =>
    cases ho' with
    | nil => cases he
    | cons b1 b2 =>
      rw [List.map_cons, List.map_cons, List.cons.injEq] at he
      obtain ⟨t, t1, rfl⟩ := m1 _ List.mem_cons_self
      obtain ⟨t', t2, rfl⟩ := m2 _ List.mem_cons_self
      rw [part_label hg hall hplace ht hlab t1 t2 a1 b1 he.1]
      congr 1
      exact ih he.2 (fun l hl => m1 l (by simp [hl])) _ b2 (fun l hl => m2 l (by simp [hl]))

end Verif.Lemmas
