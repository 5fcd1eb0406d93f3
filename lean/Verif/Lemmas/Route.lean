import Verif.Spec.Route
import Verif.Lemmas.SearchText

/-!
# Paths of the transducer are routes
-/
namespace Verif.Lemmas

open Verif.Spec Verif.Model

/-- Equal except for the tags. -/
def SameButTags (a b : Match) : Prop := b = { a with tag := b.tag, seqnr := b.seqnr }

theorem walk_route {x : TextExt} {fw : Rat} {o : Nat} {g : List Seg} {all : List Match}
    {syms : List OutputSymbol} {trs : List Tr} (ht : ∀ t ∈ trs, TrOk x fw o g all syms t)
    (ts : List Tr) : ∀ q, Walk (trs ++ epsilonTrs g.length) q ts g.length →
      ∃ l, Route x fw o g all q l (ts.map Tr.cost).sum ∧ ∃ os,
        lookupSymbols syms (outputs ts) = .ok os ∧ ∀ tags i, ∃ ms,
          resultMatches all tags i os = .ok ms ∧ List.Forall₂ SameButTags (picked l) ms ∧
          (tags = [] → ms = picked l) := by
  induction ts with
  | nil =>
    intro q h
    cases h
    exact ⟨[], .done, [], rfl, fun tags i => ⟨[], rfl, .nil, fun _ => rfl⟩⟩
  | cons t ts ih =>
    intro q hw
    obtain ⟨h1, h2, h3⟩ := hw
    obtain ⟨l, hl, os, h4, h5⟩ := ih t.dst h3
    rw [List.mem_append] at h1
    rcases h1 with h1 | h1
    · obtain ⟨sym, m, a1, a2, a3, a4, a5, a6⟩ := ht t h1
      have ho : outputs (t :: ts) = t.olabel :: outputs ts := by
        simp [outputs, a1]
      refine ⟨.pick m sym.variantIndex :: l, ?_, sym :: os, ?_, ?_⟩
      · subst h2
        rw [List.map_cons, List.sum_cons]
        rcases a6 with ⟨vi, vs, v, c1, c2, c3, _, c5⟩ | ⟨c1, c2, _, c4, c5⟩
        · rw [c1, c5]
          exact .variant (List.mem_of_getElem? a3) a4 c2 c3 hl
        · rw [c1, c5]
          rw [c4] at a4 hl
          exact .unknown (List.mem_of_getElem? a3) a4 c2 hl
      · rw [ho, lookupSymbols, a2]
        simp only [bind, Except.bind, h4, pure, Except.pure]
      · intro tags i
        obtain ⟨ms, b1, b2, b3⟩ := h5 tags (i + 1)
        rw [resultMatches, a3]
        simp only [bind, Except.bind, b1, pure, Except.pure]
        refine ⟨_, rfl, ?_, ?_⟩
        · rw [picked]
          refine .cons ?_ b2
          cases tags[i]? <;> rfl
        · rintro rfl
          rw [picked, b3 rfl]
          rfl
    · unfold epsilonTrs at h1
      rw [List.mem_map] at h1
      obtain ⟨j, hj, rfl⟩ := h1
      rw [List.mem_range] at hj
      simp only at h2 hl
      subst h2
      have ho : outputs (({ src := j, ilabel := 0, olabel := 0, cost := 100, dst := j + 1 } : Tr) :: ts) =
          outputs ts := by simp [outputs]
      rw [ho, List.map_cons, List.sum_cons]
      exact ⟨.skip :: l, .skip hj hl, os, h4, h5⟩

theorem route_walk {x : TextExt} {fw : Rat} {o : Nat} {g : List Seg} {all : List Match} {syms : List OutputSymbol} {trs : List Tr}
    (ht : ∀ t ∈ trs, TrOk x fw o g all syms t)
    (hh : ∀ (j : Nat) m s e, all[j]? = some m → Span o g s e m → HasTrs syms trs j s e m)
    {q : Nat} {l : List Step} {c : Rat} (h : Route x fw o g all q l c) :
    ∃ ts, Walk (trs ++ epsilonTrs g.length) q ts g.length ∧ (ts.map Tr.cost).sum = c := by
  induction h with
  | done => exact ⟨[], rfl, rfl⟩
  | @skip q l c hq _ ih =>
    obtain ⟨ts, h1, h2⟩ := ih
    refine ⟨{ src := q, ilabel := 0, olabel := 0, cost := 100, dst := q + 1 } :: ts,
      ⟨?_, rfl, h1⟩, ?_⟩
    · rw [List.mem_append]; right
      unfold epsilonTrs
      rw [List.mem_map]
      exact ⟨q, List.mem_range.mpr hq, rfl⟩
    · rw [List.map_cons, List.sum_cons, h2]
  | @variant q e l c m vs i v hm hs hv hi _ ih =>
    obtain ⟨ts, h1, h2⟩ := ih
    obtain ⟨j, hj⟩ := List.mem_iff_getElem?.mp hm
    obtain ⟨t, h3, sym, h4, h5, h6, h7, h8⟩ := (hh j m q e hj hs).1 vs i v hv hi
    obtain ⟨sym', m', _, b2, b3, _, _, b6⟩ := ht t h3
    rw [h4] at b2; cases b2
    rw [h5, hj] at b3; cases b3
    refine ⟨t :: ts, ⟨by simp [h3], h7, by rw [h8]; exact h1⟩, ?_⟩
    rw [List.map_cons, List.sum_cons, h2]
    rcases b6 with ⟨vi, vs', v', c1, c2, c3, _, c5⟩ | ⟨c1, _⟩
    · rw [h6] at c1; cases c1
      rw [hv] at c2; cases c2
      rw [hi] at c3; cases c3
      rw [c5, h7, h8]
    · rw [h6] at c1; cases c1
  | @unknown q l c m hm hs he _ ih =>
    obtain ⟨ts, h1, h2⟩ := ih
    obtain ⟨j, hj⟩ := List.mem_iff_getElem?.mp hm
    obtain ⟨t, h3, sym, h4, h5, h6, h7, h8⟩ := (hh j m q (q + 1) hj hs).2 he rfl
    obtain ⟨sym', m', _, b2, b3, _, _, b6⟩ := ht t h3
    rw [h4] at b2; cases b2
    refine ⟨t :: ts, ⟨by simp [h3], h7, by rw [h8]; exact h1⟩, ?_⟩
    rw [List.map_cons, List.sum_cons, h2]
    rcases b6 with ⟨vi, vs', v', c1, c2, c3, _, c5⟩ | ⟨_, _, _, _, c5⟩
    · rw [h6] at c1; cases c1
    · rw [c5]

/-- Every transition goes forward. -/
theorem forward_of_ok {x : TextExt} {fw : Rat} {o : Nat} {g : List Seg} {all : List Match}
    {syms : List OutputSymbol} {trs : List Tr} (ht : ∀ t ∈ trs, TrOk x fw o g all syms t)
    (n : Nat) (fs : List Nat) :
    Forward { states := n, finals := fs, trs := trs ++ epsilonTrs g.length } := by
  intro t h
  rw [List.mem_append] at h
  rcases h with h | h
  · obtain ⟨_, _, _, _, _, h1, _⟩ := ht t h
    exact h1.lt
  · unfold epsilonTrs at h
    rw [List.mem_map] at h
    obtain ⟨j, _, rfl⟩ := h
    simp

theorem bestCost_le (r : Rounding) (k : Nat) (l : List Seqn) :
    bestCost r k l ≤ r.rnd (r.rnd (k - 1 : Nat) * 2) ∧ (∀ s ∈ l, bestCost r k l ≤ s.variantCost) ∧
      (bestCost r k l = r.rnd (r.rnd (k - 1 : Nat) * 2) ∨ ∃ s ∈ l, bestCost r k l = s.variantCost) := by
  have gen : ∀ (l : List Seqn) (b : Rat),
      let m := l.foldl (fun best s => if s.variantCost < best then s.variantCost else best) b
      m ≤ b ∧ (∀ s ∈ l, m ≤ s.variantCost) ∧ (m = b ∨ ∃ s ∈ l, m = s.variantCost) := by
    intro l
    induction l with
    | nil => intro b; exact ⟨le_refl _, by simp, .inl rfl⟩
    | cons s l ih =>
      intro b
      simp only [List.foldl_cons]
      obtain ⟨h1, h2, h3⟩ := ih (if s.variantCost < b then s.variantCost else b)
      split at h1 <;> rename_i hc <;> simp only [hc, if_true, if_false] at h2 h3 ⊢
      · refine ⟨by linarith, ?_, ?_⟩
        · intro z hz
          rcases List.mem_cons.mp hz with rfl | hz
          · exact h1
          · exact h2 z hz
        · rcases h3 with h3 | ⟨z, hz, h3⟩
          · exact .inr ⟨s, by simp, h3⟩
          · exact .inr ⟨z, by simp [hz], h3⟩
      · refine ⟨h1, ?_, ?_⟩
        · intro z hz
          rcases List.mem_cons.mp hz with rfl | hz
          · linarith
          · exact h2 z hz
        · rcases h3 with h3 | ⟨z, hz, h3⟩
          · exact .inl h3
          · exact .inr ⟨z, by simp [hz], h3⟩
  exact gen l (r.rnd (r.rnd (k - 1 : Nat) * 2))

/-- The choice of a sequence. -/
theorem mostLikelySequence_best {vm : Vm} {x : TextExt} {cfg : TextConfig} {p : TextParams}
    {o : Nat} {g : List Seg} (hg : IsBatch x.isAlpha g)
    {all ms : List Match} (hsp : ∀ m ∈ all, ∃ s e, Span o g s e m)
    (hw : ∃ m ∈ all, ∃ s v, Span o g s (s + 1) m ∧ m.variants = some v)
    (h : vm.mostLikelySequence x cfg p all (boundariesFrom o g) (o + byteLen (stretch g)) = .ok ms) :
    ∃ syms trs seqs best,
      buildFst x p.variant.freqWeight all (boundariesFrom o g) (o + byteLen (stretch g)) =
        .ok ({ states := g.length + 1, finals := [g.length], trs := trs ++ epsilonTrs g.length }, syms) ∧
      (∀ t ∈ trs, TrOk x p.variant.freqWeight o g all syms t) ∧
      (∀ (j : Nat) m s e, all[j]? = some m → Span o g s e m → HasTrs syms trs j s e m) ∧
      vm.sequencesOf x cfg p (boundariesFrom o g) syms (x.solve { states := g.length + 1, finals := [g.length], trs := trs ++ epsilonTrs g.length } p.maxSeq) = .ok seqs ∧
      seqs ≠ [] ∧
      selectBest (vm.combinedScore x cfg p (bestPerplexity seqs) (bestCost x.f32 g.length seqs)
        (bestContext seqs)) seqs none = some best ∧
      resultMatches all best.1.tags 0 best.1.outputSymbols = .ok ms := by
  obtain ⟨syms, trs, h1, _, h3, h4, h5⟩ := buildFst_ok x p.variant.freqWeight hg hsp
  unfold Vm.mostLikelySequence at h
  rw [h1] at h
  obtain ⟨_, hr, h⟩ := bind_ok.mp h
  cases hr
  simp only at h
  split at h
  · next hl =>
    have ht := h5 hl
    obtain ⟨m, hm, s, v, hs, hv⟩ := hw
    exfalso
    obtain ⟨j, hj⟩ := List.mem_iff_getElem?.mp hm
    obtain ⟨c1, c2⟩ := h4 j m s (s + 1) hj hs
    cases v with
    | nil =>
      obtain ⟨t, ht', _⟩ := c2 (by simp [Match.isEmpty, hv]) rfl
      rw [ht] at ht'; cases ht'
    | cons a v =>
      obtain ⟨t, ht', _⟩ := c1 _ 0 a hv rfl
      rw [ht] at ht'; cases ht'
  · obtain ⟨seqs, h6, h⟩ := bind_ok.mp h
    rw [boundariesFrom_length] at h
    split at h
    · cases h
    · next best _ hb =>
      refine ⟨syms, trs, seqs, _, h1, h3, h4, h6, ?_, hb, h⟩
      rintro rfl
      simp [selectBest] at hb

end Verif.Lemmas
