import Verif.Lemmas.Route
import Verif.Props.Search
import Verif.Props.Score

/-!
# Properties of the transducer and the choice of a sequence (C48, C49, C68)
-/
namespace Verif.Props

open Verif.Spec Verif.Model Verif.Lemmas

/-! ## C49 -/

/-- **C49**: for every batch and any matches of its words, the transducer is built without panic (each
match has a next boundary, and there is a final state), every transition goes forward, its accepted
paths are the routes through the batch with the same costs, and there is one. -/
theorem transducer_routes {isAlpha : Char → Bool} (x : TextExt) (fw : Rat) {o : Nat} {g : List Seg}
    (hg : IsBatch isAlpha g) {all : List Match} (hsp : ∀ m ∈ all, ∃ s e, Span o g s e m) :
    ∃ fst syms, buildFst x fw all (boundariesFrom o g) (o + byteLen (stretch g)) = .ok (fst, syms) ∧
      Forward fst ∧ fst.finals = [g.length] ∧
      (∀ ts, Accepting fst ts → ∃ l, Route x fw o g all 0 l (ts.map Tr.cost).sum ∧ ∃ os,
        lookupSymbols syms (outputs ts) = .ok os ∧ resultMatches all [] 0 os = .ok (picked l)) ∧
      (∀ l c, Route x fw o g all 0 l c → ∃ ts, Accepting fst ts ∧ (ts.map Tr.cost).sum = c) ∧
      ∃ ts, Accepting fst ts := by
  obtain ⟨syms, trs, h1, _, h3, h4, _⟩ := buildFst_ok x fw hg hsp
  refine ⟨_, syms, h1, forward_of_ok h3 _ _, rfl, ?_, ?_, ?_⟩
  · rintro ts ⟨q, hq, hw⟩
    rw [List.mem_singleton] at hq
    subst hq
    obtain ⟨l, a1, os, a2, a3⟩ := walk_route h3 ts 0 hw
    obtain ⟨ms, b1, _, b3⟩ := a3 [] 0
    rw [b3 rfl] at b1
    exact ⟨l, a1, os, a2, b1⟩
  · intro l c hr
    obtain ⟨ts, a1, a2⟩ := route_walk h3 h4 hr
    exact ⟨ts, ⟨g.length, by simp, a1⟩, a2⟩
  · obtain ⟨ts, hts⟩ := epsilon_walk g.length 0 g.length (by omega)
    rw [Nat.zero_add] at hts
    exact ⟨ts, g.length, by simp, walk_mono (fun t ht => List.mem_append_right _ ht) hts⟩

/-- The batch `a-b` of two words with three matches, one of them without variants. -/
def exBatch : List Seg := [("a".toList, "-".toList), ("b".toList, [])]

theorem exBatch_ok : IsBatch letters exBatch :=
  ⟨⟨by decide, rfl, by decide +kernel, by decide +kernel, by decide +kernel, by decide +kernel⟩,
    by decide +kernel⟩

/-- Matches of this batch, which starts at byte 5. -/
def exMatches : List Match :=
  [{ text := "a".toList, first := 5, last := 6, n := 1, variants := some [⟨4, 1/2, 1, none⟩] },
   { text := "b".toList, first := 7, last := 8, n := 1, variants := some [] },
   { text := "a-b".toList, first := 5, last := 8, n := 2, variants := some [⟨3, 1/4, 1, none⟩, ⟨5, 1/8, 1, none⟩] }]

theorem exMatches_spans : ∀ m ∈ exMatches, ∃ s e, Span 5 exBatch s e m := by
  intro m hm
  simp only [exMatches, List.mem_cons, List.not_mem_nil, or_false] at hm
  rcases hm with rfl | rfl | rfl
  · exact ⟨0, 1, by decide, by decide, by decide +kernel, by decide +kernel, by decide +kernel, by decide, rfl⟩
  · exact ⟨1, 2, by decide, by decide, by decide +kernel, by decide +kernel, by decide +kernel, by decide, rfl⟩
  · exact ⟨0, 2, by decide, by decide, by decide +kernel, by decide +kernel, by decide +kernel, by decide, rfl⟩

/-- The route that picks both variants of the single words costs 3 and a half. -/
example : IsBatch letters exBatch ∧ (∀ m ∈ exMatches, ∃ s e, Span 5 exBatch s e m) ∧
    (buildFst exText 0 exMatches (boundariesFrom 5 exBatch) (5 + byteLen (stretch exBatch))).toOption.map
      (fun f => (f.1.finals, f.1.trs.map fun t => (t.src, t.dst, t.cost))) =
      some ([2], [(0, 1, 3/2), (1, 2, 2), (0, 2, 11/4), (0, 2, 23/8), (0, 1, 100), (1, 2, 100)]) :=
  ⟨exBatch_ok, exMatches_spans, by decide +kernel⟩

/-! ## C48 -/

/-- **C48**: the chosen sequence is one of those the solver returned, and no other one has a higher
score; its matches are returned. -/
theorem best_sequence {vm : Vm} {x : TextExt} {cfg : TextConfig} {p : TextParams}
    {o : Nat} {g : List Seg} (hg : IsBatch x.isAlpha g)
    {all ms : List Match} (hsp : ∀ m ∈ all, ∃ s e, Span o g s e m)
    (hw : ∃ m ∈ all, ∃ s v, Span o g s (s + 1) m ∧ m.variants = some v)
    (h : vm.mostLikelySequence x cfg p all (boundariesFrom o g) (o + byteLen (stretch g)) = .ok ms) :
    ∃ fst syms seqs best,
      buildFst x p.variant.freqWeight all (boundariesFrom o g) (o + byteLen (stretch g)) =
        .ok (fst, syms) ∧
      List.Forall₂ (fun path s => vm.sequenceOf x cfg p (boundariesFrom o g) syms path = .ok s)
        (x.solve fst p.maxSeq) seqs ∧
      best ∈ seqs ∧
      (∀ s ∈ seqs, (vm.combinedScore x cfg p (bestPerplexity seqs) (bestCost x.f32 g.length seqs)
        (bestContext seqs) s).gt (vm.combinedScore x cfg p (bestPerplexity seqs)
          (bestCost x.f32 g.length seqs) (bestContext seqs) best) = false) ∧
      resultMatches all best.tags 0 best.outputSymbols = .ok ms := by
  obtain ⟨syms, trs, seqs, best, h1, _, _, h4, h5, h6, h7⟩ := mostLikelySequence_best hg hsp hw h
  obtain ⟨s, b1, b2, b3⟩ := selectBest_none (vm.combinedScore x cfg p (bestPerplexity seqs)
    (bestCost x.f32 g.length seqs) (bestContext seqs)) seqs h5
  rw [b1] at h6
  cases h6
  exact ⟨_, syms, seqs, s, h1, sequencesOf_ok.mp h4, b2, b3, h7⟩

/-- The match of two words wins over the two single words. -/
theorem exBatch_best : (∃ m ∈ exMatches, ∃ s v, Span 5 exBatch s (s + 1) m ∧ m.variants = some v) ∧
    (plain.mostLikelySequence exText exTextConfig exTextParams exMatches (boundariesFrom 5 exBatch)
      (5 + byteLen (stretch exBatch))).toOption =
      some [{ text := "a-b".toList, first := 5, last := 8, n := 2, selected := some 0, variants := some [⟨3, 1/4, 1, none⟩, ⟨5, 1/8, 1, none⟩] }] :=
  ⟨⟨_, List.mem_cons_self, 0, _, ⟨by decide, by decide, by decide +kernel, by decide +kernel,
    by decide +kernel, by decide, rfl⟩, rfl⟩, by decide +kernel⟩

theorem combinedScore_variant {vm : Vm} {x : TextExt} {cfg : TextConfig} {p : TextParams}
    (hlm : vm.haveLm = false) (hr : cfg.contextRules = []) (bp : EFloat) (bc bx : Rat) (s : Seqn) :
    vm.combinedScore x cfg p bp bc bx s =
      .log x.ln64 (.div x.f64 false (.fin bc) (.fin s.variantCost)) := by
  unfold Vm.combinedScore
  simp [hlm, hr]

theorem sequenceOf_plain {vm : Vm} {x : TextExt} {cfg : TextConfig} {p : TextParams}
    (hlm : vm.haveLm = false) (hr : cfg.contextRules = []) {bs : List Match}
    {syms : List OutputSymbol} {path : FstPath} {s : Seqn}
    (h : vm.sequenceOf x cfg p bs syms path = .ok s) : s.tags = [] := by
  unfold Vm.sequenceOf at h
  obtain ⟨os, h1, h⟩ := bind_ok.mp h
  simp only [hlm, hr, Bool.false_eq_true, false_and, if_false, List.isEmpty_nil, if_true] at h
  have := pure_ok.mp h
  rw [← this]

/-- A route costs something. -/
theorem route_pos {x : TextExt} (h32 : x.f32 = Rounding.exact) {fw : Rat} {o : Nat} {g : List Seg}
    {all : List Match}
    (hscore : ∀ m ∈ all, ∀ vs, m.variants = some vs → ∀ v ∈ vs, v.score x.f64 fw < 2)
    {q : Nat} {l : List Step} {c : Rat} (h : Route x fw o g all q l c) :
    (q < g.length → 0 < c) ∧ 0 ≤ c := by
  have e : ∀ y, x.f32.rnd y = y := by intro y; rw [h32]; rfl
  induction h with
  | done => exact ⟨fun h => absurd h (Nat.lt_irrefl _), le_refl _⟩
  | skip hq _ ih => exact ⟨fun _ => by linarith [ih.2], by linarith [ih.2]⟩
  | @variant q e' l c m vs i v hm hs hv hi _ ih =>
    simp only [e]
    have h1 := hscore m hm vs hv v (List.mem_of_getElem? hi)
    have h2 : (1 : Rat) ≤ ((e' - q : Nat) : Rat) := by
      have := hs.lt
      exact_mod_cast (show 1 ≤ e' - q by omega)
    exact ⟨fun _ => by linarith [ih.2], by linarith [ih.2]⟩
  | unknown hm hs he _ ih =>
    simp only [e]
    have h2 : ((1 : Nat) : Rat) = 1 := by norm_num
    rw [h2]
    exact ⟨fun _ => by linarith [ih.2], by linarith [ih.2]⟩

theorem head_of_forall₂ {α β : Type} {R : α → β → Prop} {l : List α} {l' : List β} (h : List.Forall₂ R l l') {b : β}
    (hb : b ∈ l'.head?) : ∃ a ∈ l.head?, R a b := by
  cases h with
  | nil => cases hb
  | cons h1 _ =>
    cases hb
    exact ⟨_, rfl, h1⟩

/-- The chosen sequence as a route. -/
theorem chosen_route {vm : Vm} {x : TextExt} {cfg : TextConfig} {p : TextParams}
    (hlm : vm.haveLm = false) (hr : cfg.contextRules = []) (hsolve : SolverExact x.solve)
    {o : Nat} {g : List Seg} (hg : IsBatch x.isAlpha g)
    {all ms : List Match} (hsp : ∀ m ∈ all, ∃ s e, Span o g s e m)
    (hw : ∃ m ∈ all, ∃ s v, Span o g s (s + 1) m ∧ m.variants = some v)
    (h : vm.mostLikelySequence x cfg p all (boundariesFrom o g) (o + byteLen (stretch g)) = .ok ms) :
    ∃ seqs best l, selectBest (fun s : Seqn => .log x.ln64 (.div x.f64 false
        (.fin (bestCost x.f32 g.length seqs)) (.fin s.variantCost))) seqs none = some best ∧
      seqs ≠ [] ∧
      (∀ s ∈ seqs, ∃ l, Route x p.variant.freqWeight o g all 0 l s.variantCost) ∧
      (SolverFirst x.solve → g.length = 1 → ∀ s ∈ seqs.head?, ∀ l' c',
        Route x p.variant.freqWeight o g all 0 l' c' → s.variantCost ≤ c') ∧
      (1 ≤ p.maxSeq → ∀ l' c', Route x p.variant.freqWeight o g all 0 l' c' →
        ∃ s ∈ seqs, s.variantCost ≤ c') ∧
      Route x p.variant.freqWeight o g all 0 l best.1.variantCost ∧ ms = picked l := by
  obtain ⟨syms, trs, seqs, best, h1, h2, h3, h4, h5, h6, h7⟩ := mostLikelySequence_best hg hsp hw h
  have hf := sequencesOf_ok.mp h4
  have hsc : vm.combinedScore x cfg p (bestPerplexity seqs) (bestCost x.f32 g.length seqs)
      (bestContext seqs) = fun s : Seqn => .log x.ln64 (.div x.f64 false
        (.fin (bestCost x.f32 g.length seqs)) (.fin s.variantCost)) :=
    funext fun s => combinedScore_variant hlm hr _ _ _ s
  rw [hsc] at h6
  have hroute : ∀ s ∈ seqs, ∃ l, Route x p.variant.freqWeight o g all 0 l s.variantCost ∧
      resultMatches all s.tags 0 s.outputSymbols = .ok (picked l) := by
    intro s hs
    obtain ⟨path, hp, hs⟩ := mem_of_forall₂_right hf hs
    obtain ⟨ts, ⟨q, hq, hwk⟩, e1, e2⟩ := hsolve.sound _ _ _ hp
    rw [List.mem_singleton] at hq
    subst hq
    obtain ⟨l, a1, os, a2, a3⟩ := walk_route h2 ts 0 hwk
    obtain ⟨s1, s2⟩ := sequenceOf_symbols hs
    have s3 := sequenceOf_plain hlm hr hs
    rw [e1, a2] at s1
    cases s1
    obtain ⟨ms', b1, _, b3⟩ := a3 [] 0
    rw [s2, e2, s3]
    exact ⟨l, a1, by rw [b1, b3 rfl]⟩
  obtain ⟨b, b1, b2, b3⟩ := selectBest_none (fun s : Seqn => .log x.ln64 (.div x.f64 false
        (.fin (bestCost x.f32 g.length seqs)) (.fin s.variantCost))) seqs h5
  have hb : best.1 = b := by rw [b1] at h6; cases h6; rfl
  obtain ⟨l, r1, r2⟩ := hroute b b2
  refine ⟨seqs, best, l, h6, h5, fun s hs => ?_, ?_, ?_, hb ▸ r1, ?_⟩
  · obtain ⟨l', r, _⟩ := hroute s hs
    exact ⟨l', r⟩
  · intro hfirst hg1 s hs l' c' hr'
    obtain ⟨ts, w1, w2⟩ := route_walk h2 h3 hr'
    obtain ⟨path, hp, hs⟩ := head_of_forall₂ hf hs
    rw [(sequenceOf_symbols hs).2, ← w2]
    exact hfirst { states := g.length + 1, finals := [g.length], trs := trs ++ epsilonTrs g.length } p.maxSeq ts
      (by show g.length + 1 = 2; omega) (forward_of_ok h2 _ _) ⟨g.length, by simp, w1⟩ path hp
  · intro hn l' c' hr'
    obtain ⟨ts, w1, w2⟩ := route_walk h2 h3 hr'
    have hacc : Accepting { states := g.length + 1, finals := [g.length], trs := trs ++ epsilonTrs g.length } ts :=
      ⟨g.length, by simp, w1⟩
    obtain ⟨π, hπ, hle⟩ := hsolve.best _ _ ts hn (forward_of_ok h2 _ _) hacc
    obtain ⟨s, hs, hs'⟩ := mem_of_forall₂_left hf hπ
    refine ⟨s, hs, ?_⟩
    rw [(sequenceOf_symbols hs').2, ← w2]
    exact hle
  · rw [hb, r2] at h7
    cases h7; rfl

/-- **C48**: without language model and context rules, for a batch of at least two words (or
separators), the result is a route of least cost among all routes (exact arithmetic; the solver returns
a cheapest path among others, in any order). -/
theorem cheapest_route {vm : Vm} {x : TextExt} {cfg : TextConfig} {p : TextParams}
    (hlm : vm.haveLm = false) (hr : cfg.contextRules = []) (hsolve : SolverExact x.solve)
    (h32 : x.f32 = Rounding.exact) (h64 : x.f64 = Rounding.exact)
    (hln : ∀ a b, 0 < a → a < b → x.ln64 a < x.ln64 b) (hseq : 1 ≤ p.maxSeq)
    {o : Nat} {g : List Seg} (hg : IsBatch x.isAlpha g) (hlen : 2 ≤ g.length)
    {all ms : List Match} (hsp : ∀ m ∈ all, ∃ s e, Span o g s e m)
    (hw : ∃ m ∈ all, ∃ s v, Span o g s (s + 1) m ∧ m.variants = some v)
    (hscore : ∀ m ∈ all, ∀ vs, m.variants = some vs → ∀ v ∈ vs,
      v.score x.f64 p.variant.freqWeight < 2)
    (h : vm.mostLikelySequence x cfg p all (boundariesFrom o g) (o + byteLen (stretch g)) = .ok ms) :
    ∃ l c, Route x p.variant.freqWeight o g all 0 l c ∧ ms = picked l ∧
      ∀ l' c', Route x p.variant.freqWeight o g all 0 l' c' → c ≤ c' := by
  obtain ⟨seqs, best, l, h1, h2, h3, _, h5, h6, h7⟩ :=
    chosen_route hlm hr hsolve hg hsp hw h
  refine ⟨l, best.1.variantCost, h6, h7, ?_⟩
  obtain ⟨b, b1, b2, b3⟩ := selectBest_none (fun s : Seqn => .log x.ln64 (.div x.f64 false
        (.fin (bestCost x.f32 g.length seqs)) (.fin s.variantCost))) seqs h2
  have hb : best.1 = b := by rw [b1] at h1; cases h1; rfl
  rw [hb]
  intro l' c' hr'
  obtain ⟨s, hs, hle⟩ := h5 hseq l' c' hr'
  refine le_trans ?_ hle
  have hpos : ∀ s ∈ seqs, 0 < s.variantCost := by
    intro s hs
    obtain ⟨l, hl⟩ := h3 s hs
    exact (route_pos h32 hscore hl).1 (by omega)
  have hbest : 0 < bestCost x.f32 g.length seqs := by
    rcases (bestCost_le x.f32 g.length seqs).2.2 with e | ⟨s, hs, e⟩
    · rw [e, h32]
      show (0 : Rat) < ((g.length - 1 : Nat) : Rat) * 2
      have : (1 : Rat) ≤ ((g.length - 1 : Nat) : Rat) := by exact_mod_cast (show 1 ≤ g.length - 1 by omega)
      linarith
    · rw [e]; exact hpos s hs
  by_contra hcon
  have hlt := not_le.mp hcon
  have h3 := b3 s hs
  have ps := hpos s hs
  have pb := hpos b b2
  have hdiv : bestCost x.f32 g.length seqs / b.variantCost < bestCost x.f32 g.length seqs / s.variantCost :=
    div_lt_div_of_pos_left hbest ps hlt
  have hd1 : 0 < bestCost x.f32 g.length seqs / b.variantCost := div_pos hbest pb
  have hd2 := lt_trans hd1 hdiv
  simp only [h64, EFloat.div, Rounding.exact, id, ps.ne', pb.ne', if_false, EFloat.log, gt_iff_lt,
    hd1, hd2, if_true, EFloat.gt, decide_eq_false_iff_not] at h3
  exact h3 (hln _ _ hd1 hdiv)

/-- `exBatch_best` is such a case: the routes cost 2 and 3 quarters, 2 and 7 eighths, 3 and a half, and
more. -/
example : 2 ≤ exBatch.length ∧ (∀ m ∈ exMatches, ∀ vs, m.variants = some vs → ∀ v ∈ vs,
    v.score exText.f64 0 ≤ 1) := ⟨by decide, by
  intro m hm vs hvs v hv
  simp only [exMatches, List.mem_cons, List.not_mem_nil, or_false] at hm
  rcases hm with rfl | rfl | rfl <;> cases hvs <;> simp at hv
  · subst hv; decide +kernel
  · rcases hv with rfl | rfl <;> decide +kernel⟩

/-- With a batch of one word all scores are −∞, and the first path of the solver is taken. -/
theorem selectBest_flat (score : Seqn → EFloat) (s : Seqn) (l : List Seqn)
    (h : ∀ t ∈ s :: l, score t = .negInf) :
    selectBest score (s :: l) none = some (s, .negInf) := by
  rw [selectBest, h s (by simp)]
  have h' : ∀ t ∈ l, score t = .negInf := fun t ht => h t (by simp [ht])
  clear h
  induction l with
  | nil => rfl
  | cons a l ih =>
    rw [selectBest, h' a (by simp)]
    exact ih fun t ht => h' t (by simp [ht])

/-- **C48**: if the solver returns a cheapest path first where paths have one transition, the result is a route of
least cost also for batches of one word. -/
theorem cheapest_route_first {vm : Vm} {x : TextExt} {cfg : TextConfig} {p : TextParams}
    (hlm : vm.haveLm = false) (hr : cfg.contextRules = []) (hsolve : SolverExact x.solve)
    (hfirst : SolverFirst x.solve)
    (h32 : x.f32 = Rounding.exact) (h64 : x.f64 = Rounding.exact)
    (hln : ∀ a b, 0 < a → a < b → x.ln64 a < x.ln64 b) (hseq : 1 ≤ p.maxSeq)
    {o : Nat} {g : List Seg} (hg : IsBatch x.isAlpha g)
    {all ms : List Match} (hsp : ∀ m ∈ all, ∃ s e, Span o g s e m)
    (hw : ∃ m ∈ all, ∃ s v, Span o g s (s + 1) m ∧ m.variants = some v)
    (hscore : ∀ m ∈ all, ∀ vs, m.variants = some vs → ∀ v ∈ vs,
      v.score x.f64 p.variant.freqWeight < 2)
    (h : vm.mostLikelySequence x cfg p all (boundariesFrom o g) (o + byteLen (stretch g)) = .ok ms) :
    ∃ l c, Route x p.variant.freqWeight o g all 0 l c ∧ ms = picked l ∧
      ∀ l' c', Route x p.variant.freqWeight o g all 0 l' c' → c ≤ c' := by
  rcases Nat.lt_or_ge g.length 2 with hlen | hlen
  · have hg1 : g.length = 1 := by
      have := List.length_pos_iff.mpr hg.seg.ne
      omega
    obtain ⟨seqs, best, l, h1, h2, h3, h4, h5, h6, h7⟩ := chosen_route hlm hr hsolve hg hsp hw h
    refine ⟨l, best.1.variantCost, h6, h7, ?_⟩
    have hpos : ∀ s ∈ seqs, 0 < s.variantCost := by
      intro s hs
      obtain ⟨l, hl⟩ := h3 s hs
      exact (route_pos h32 hscore hl).1 (by omega)
    have hbest : bestCost x.f32 g.length seqs = 0 := by
      obtain ⟨a, _, b⟩ := bestCost_le x.f32 g.length seqs
      have e : x.f32.rnd (x.f32.rnd (g.length - 1 : Nat) * 2) = 0 := by
        rw [hg1, h32]
        show ((1 - 1 : Nat) : Rat) * 2 = 0
        norm_num
      rw [e] at a b
      rcases b with b | ⟨s, hs, b⟩
      · exact b
      · have := hpos s hs
        linarith
    cases seqs with
    | nil => exact absurd rfl h2
    | cons s seqs =>
      have hflat : ∀ t ∈ s :: seqs, EFloat.log x.ln64 (.div x.f64 false
          (.fin (bestCost x.f32 g.length (s :: seqs))) (.fin t.variantCost)) = .negInf := by
        intro t ht
        rw [hbest]
        simp [EFloat.div, (hpos t ht).ne', EFloat.log, h64, Rounding.exact]
      rw [selectBest_flat _ s seqs hflat] at h1
      cases h1
      intro l' c' hr'
      exact h4 hfirst hg1 s rfl l' c' hr'
  · exact cheapest_route hlm hr hsolve h32 h64 hln hseq hg hlen hsp hw hscore h

theorem refSolver_sorted (f : Fst) (n : Nat) : (refSolver f n).Pairwise fun a b => a.weight ≤ b.weight := by
  refine List.Pairwise.sublist (List.take_sublist _ _) ?_
  have : Std.Total (fun a b : FstPath => a.weight ≤ b.weight) := ⟨fun a b => le_total _ _⟩
  have : IsTrans FstPath (fun a b => a.weight ≤ b.weight) := ⟨fun a b c h h' => le_trans h h'⟩
  exact List.pairwise_insertionSort _ _

/-- The reference solver meets the stronger requirements as well. -/
theorem refSolver_exact : SolverExact refSolver where
  sound := by
    intro f n π h
    have h := List.mem_of_mem_take h
    rw [List.mem_insertionSort, List.mem_map] at h
    obtain ⟨w, h1, rfl⟩ := h
    rw [List.mem_filter, List.contains_iff_mem] at h1
    exact ⟨w.1, ⟨w.2, h1.2, walk_of_walks h1.1⟩, rfl, rfl⟩
  best := by
    intro f n ts hn hf ⟨q, hq, hw⟩
    obtain ⟨h1, _⟩ := walks_of_walk hf (n := f.finals.foldr max 0) hw
      (by have := le_foldr_max hq; omega)
    have hsort := refSolver_sorted f (refSolver f (refSolver f n).length).length
    have hfull : ∃ l : List FstPath, refSolver f n = l.take n ∧
        l.Pairwise (fun a b => a.weight ≤ b.weight) ∧ ∃ π ∈ l, π.weight = (ts.map Tr.cost).sum := by
      refine ⟨_, rfl, ?_, { weight := (ts.map Tr.cost).sum, olabels := outputs ts }, ?_, rfl⟩
      · have : Std.Total (fun a b : FstPath => a.weight ≤ b.weight) := ⟨fun a b => le_total _ _⟩
        have : IsTrans FstPath (fun a b => a.weight ≤ b.weight) := ⟨fun a b c h h' => le_trans h h'⟩
        exact List.pairwise_insertionSort _ _
      · rw [List.mem_insertionSort, List.mem_map]
        exact ⟨(ts, q), List.mem_filter.mpr ⟨h1, by simpa using hq⟩, rfl⟩
    obtain ⟨l, e, hs, π, hπ, hπe⟩ := hfull
    cases l with
    | nil => cases hπ
    | cons a l =>
      refine ⟨a, ?_, ?_⟩
      · rw [e]
        obtain ⟨n, rfl⟩ : ∃ n', n = n' + 1 := ⟨n - 1, by omega⟩
        simp
      · rw [← hπe]
        rcases List.mem_cons.mp hπ with rfl | hπ
        · exact le_refl _
        · exact (List.pairwise_cons.mp hs).1 π hπ

theorem refSolver_first : SolverFirst refSolver := by
  intro f n ts _ hf ha π hπ
  have hn : 1 ≤ n := by
    rcases n with _ | n
    · cases hπ
    · omega
  obtain ⟨π', h1, h2⟩ := refSolver_exact.best f n ts hn hf ha
  refine le_trans ?_ h2
  have hs := refSolver_sorted f n
  cases hl : refSolver f n with
  | nil =>
    rw [hl] at h1
    cases h1
  | cons a l =>
    rw [hl] at hs hπ h1
    cases hπ
    rcases List.mem_cons.mp h1 with rfl | h1
    · exact le_refl _
    · exact (List.pairwise_cons.mp hs).1 π' h1

theorem SolverExact.within {solve : Fst → Nat → List FstPath} (h : SolverExact solve)
    (hfirst : SolverFirst solve) : SolverWithin (fun _ => 0) solve where
  ok := h.ok
  sound := fun f n π hf hp => by
    obtain ⟨ts, h1, h2, h3⟩ := h.sound f n π hp
    refine ⟨ts, h1, h2, ?_, by rw [h3]; simp⟩
    intro hne
    rw [h3]
    refine List.sum_pos _ ?_ (by simpa using hne)
    intro c hc
    obtain ⟨t, ht, rfl⟩ := List.mem_map.mp hc
    obtain ⟨q, _, hw⟩ := h1
    exact lt_of_lt_of_le (by norm_num) (hf.costs t (walk_mem hw t ht))
  best := fun f n ts hn hf ha => by
    obtain ⟨π, h1, h2⟩ := h.best f n ts hn hf.forward ha
    exact ⟨π, h1, by simpa using h2⟩
  first := fun f n ts h2 hf ha π hπ => by simpa using hfirst f n ts h2 hf.forward ha π hπ

/-- With exact arithmetic there are no errors. -/
theorem exact_reckons {x : TextExt} (hsolve : SolverExact x.solve) (hfirst : SolverFirst x.solve)
    (h32 : x.f32 = Rounding.exact) (h64 : x.f64 = Rounding.exact)
    (hln : ∀ a b, 0 < a → a < b → x.ln64 a < x.ln64 b) (fw : Rat) : Reckons x fw 0 fun _ => 0 where
  close y := by rw [h32]; simp [Rounding.exact]
  close64 y := by rw [h64]; simp [Rounding.exact]
  unit := by norm_num
  small k _ := by rw [h32]; rfl
  weight := by rw [h64]; rfl
  apart c a b hc h1 _ h2 _ _ _ := by
    rw [h64]
    have ha := hc.trans_le h1
    exact ⟨div_pos hc ha, .inr (hln _ _ (div_pos hc (ha.trans h2)) (div_lt_div_of_pos_left hc ha h2))⟩
  error _ := le_refl _
  solver := SolverExact.within hsolve hfirst
  single f n π _ := by rw [h32]; rfl

theorem slack_zero : slack 0 (fun _ => 0) = fun _ => 0 := by
  funext n
  simp [slack]

theorem exText_reckons (fw : Rat) : Reckons exText fw 0 fun _ => 0 :=
  exact_reckons refSolver_exact refSolver_first rfl rfl (by
    intro a b _ h
    show a - 1 < b - 1
    linarith) fw

/-- If all costs are compared to 0, the first sequence is chosen. -/
theorem selectBest_level {x : TextExt} {s : Seqn} {l : List Seqn} (h : ∀ t ∈ s :: l, 0 < t.variantCost) :
    ∃ v, selectBest (fun s : Seqn => .log x.ln64 (.div x.f64 false (.fin 0) (.fin s.variantCost))) (s :: l) none =
      some (s, v) := by
  refine ⟨_, selectBest_flat _ s l ?_⟩
  intro t ht
  simp [EFloat.div, (h t ht).ne', EFloat.log, x.f64.zero]

/-- What a variant costs. -/
theorem arc_pos {r : Rounding} {u : Rat} (hclose : ∀ y, |r.rnd y - y| ≤ u * max 1 |y|) (hu : u ≤ 1 / 1000) {s : Rat}
    (hs : s ≤ 191 / 100) {n : Nat} (hn : 1 ≤ n) : 1 / 20 ≤ r.rnd (r.rnd n + r.rnd (1 - r.rnd s)) := by
  have h1 : r.rnd s ≤ 192 / 100 := by
    refine (r.mono _ _ hs).trans ?_
    have := (abs_le.mp (hclose (191 / 100))).2
    rw [abs_of_pos (by norm_num), max_eq_right (by norm_num)] at this
    linarith
  have h2 : -94 / 100 ≤ r.rnd (1 - r.rnd s) := by
    refine le_trans ?_ (r.mono (-92 / 100) _ (by linarith))
    have := (abs_le.mp (hclose (-92 / 100))).1
    rw [abs_of_neg (by norm_num), max_eq_left (by norm_num)] at this
    linarith
  have h3 : 1 ≤ r.rnd n := by
    rw [← r.one]
    exact r.mono _ _ (by exact_mod_cast hn)
  refine le_trans ?_ (r.mono (6 / 100) _ (by linarith))
  have := (abs_le.mp (hclose (6 / 100))).1
  rw [abs_of_pos (by norm_num), max_eq_left (by norm_num)] at this
  linarith

/-- What a word without variants costs. -/
theorem unknown_pos (r : Rounding) : 1 / 20 ≤ r.rnd (r.rnd (1 : Nat) + 1) := by
  have e : r.rnd ((1 : Nat) : Rat) = 1 := by rw [Nat.cast_one, r.one]
  have := r.mono 1 (r.rnd ((1 : Nat) : Rat) + 1) (by rw [e]; norm_num)
  rw [r.one] at this
  exact le_trans (by norm_num) this

/-- A route that skips every word. -/
theorem route_skips (x : TextExt) (fw : Rat) (o : Nat) (g : List Seg) (all : List Match) (n : Nat) :
    ∀ q, q + n = g.length → ∃ l, Route x fw o g all q l (100 * n) := by
  induction n with
  | zero =>
    intro q hq
    obtain rfl : q = g.length := by omega
    exact ⟨[], by simpa using Route.done⟩
  | succ n ih =>
    intro q hq
    obtain ⟨l, hl⟩ := ih (q + 1) (by omega)
    have := Route.skip (by omega) hl
    rw [show (100 : Rat) + 100 * n = 100 * (n + 1 : Nat) by push_cast; ring] at this
    exact ⟨_, this⟩

/-- The costs of different sequences, compared to the best one, have different logarithms: the cheapest sequence
is chosen. -/
theorem selectBest_apart {x : TextExt} {fw u : Rat} {d : Nat → Rat} (hx : Reckons x fw u d) {c : Rat}
    {seqs : List Seqn} {best : Seqn × EFloat} (hne : seqs ≠ []) (hc : 0 < c) (hc32 : x.f32.rnd c = c)
    (hs : ∀ s ∈ seqs, c ≤ s.variantCost ∧ x.f32.rnd s.variantCost = s.variantCost)
    (hcheap : ∃ a ∈ seqs, a.variantCost ≤ 300 * c)
    (h : selectBest (fun s : Seqn => .log x.ln64 (.div x.f64 false (.fin c) (.fin s.variantCost))) seqs none =
      some best) : best.1 ∈ seqs ∧ ∀ t ∈ seqs, best.1.variantCost ≤ t.variantCost := by
  obtain ⟨b, b1, b2, b3⟩ := selectBest_none (fun s : Seqn => .log x.ln64 (.div x.f64 false (.fin c)
    (.fin s.variantCost))) seqs hne
  have hb : best.1 = b := by rw [b1] at h; cases h; rfl
  rw [hb]
  refine ⟨b2, ?_⟩
  have key : ∀ t ∈ seqs, t.variantCost ≤ 300 * c → b.variantCost ≤ t.variantCost := by
    intro t ht h300
    by_contra hlt
    have hlt := not_le.mp hlt
    obtain ⟨t1, t2⟩ := hs t ht
    obtain ⟨s1, s2⟩ := hs b b2
    obtain ⟨a1, a2⟩ := hx.apart c t.variantCost b.variantCost hc t1 h300 hlt hc32 t2 s2
    have hgt := b3 t ht
    have pt := (hc.trans_le t1).ne'
    have pb := (hc.trans_le s1).ne'
    simp only [EFloat.div, pt, pb, if_false, EFloat.log, gt_iff_lt, a1, if_true] at hgt
    have hnn := rnd_nonneg x.f64 (div_nonneg hc.le (hc.le.trans s1))
    rcases a2 with a2 | a2
    · rw [if_neg (not_lt.mpr a2), if_pos (le_antisymm a2 hnn)] at hgt
      cases hgt
    · split at hgt
      · simp only [EFloat.gt, gt_iff_lt, decide_eq_false_iff_not] at hgt
        exact hgt a2
      · rename_i hn
        rw [if_pos (le_antisymm (not_lt.mp hn) hnn)] at hgt
        cases hgt
  intro t ht
  by_cases h300 : t.variantCost ≤ 300 * c
  · exact key t ht h300
  · obtain ⟨a, ha, ha'⟩ := hcheap
    exact (key a ha ha').trans (ha'.trans (not_le.mp h300).le)

/-- The cost to compare to, of a batch of at least two words. -/
theorem start_pos {r : Rounding} {u : Rat} (hclose : ∀ y, |r.rnd y - y| ≤ u * max 1 |y|) (hu : u ≤ 1 / 1000) {k : Nat}
    (hk : 2 ≤ k) : 998 / 1000 * (k : Rat) ≤ r.rnd (r.rnd ((k - 1 : Nat) : Rat) * 2) := by
  have hk' : (2 : Rat) ≤ k := by exact_mod_cast hk
  have e : ((k - 1 : Nat) : Rat) = k - 1 := by
    rw [Nat.cast_sub (by omega), Nat.cast_one]
  have low : ∀ y : Rat, 1 ≤ y → 999 / 1000 * y ≤ r.rnd y := by
    intro y hy
    have := (abs_le.mp (hclose y)).1
    rw [abs_of_pos (by linarith), max_eq_right hy] at this
    nlinarith
  have h1 := low ((k - 1 : Nat) : Rat) (by rw [e]; linarith)
  rw [e] at h1
  rw [e]
  have h2 := low (r.rnd ((k : Rat) - 1) * 2) (by linarith)
  linarith

/-- **C48**, for solvers that add in floating point: the result is a route whose computed cost is at most that of
any other route, as far as the solver can tell. -/
theorem nearly_cheapest_route {vm : Vm} {x : TextExt} {cfg : TextConfig} {p : TextParams} {u : Rat} {d : Nat → Rat}
    (hlm : vm.haveLm = false) (hr : cfg.contextRules = []) (hx : Reckons x p.variant.freqWeight u d)
    (hseq : 1 ≤ p.maxSeq) {o : Nat} {g : List Seg} (hg : IsBatch x.isAlpha g)
    {all ms : List Match} (hsp : ∀ m ∈ all, ∃ s e, Span o g s e m)
    (hw : ∃ m ∈ all, ∃ s v, Span o g s (s + 1) m ∧ m.variants = some v)
    (hscore : ∀ m ∈ all, ∀ vs, m.variants = some vs → ∀ v ∈ vs,
      v.score x.f64 p.variant.freqWeight ≤ 191 / 100)
    (h : vm.mostLikelySequence x cfg p all (boundariesFrom o g) (o + byteLen (stretch g)) = .ok ms) :
    ∃ l c, Route x p.variant.freqWeight o g all 0 l c ∧ ms = picked l ∧
      ∀ l' c', Route x p.variant.freqWeight o g all 0 l' c' →
        c - d (g.length + 1) * (1 + c) ≤ c' + d (g.length + 1) * (1 + c') := by
  obtain ⟨syms, trs, seqs, best, h1, h2, h3, h4, h5, h6, h7⟩ := mostLikelySequence_best hg hsp hw h
  have hf := sequencesOf_ok.mp h4
  have hsc : vm.combinedScore x cfg p (bestPerplexity seqs) (bestCost x.f32 g.length seqs)
      (bestContext seqs) = fun s : Seqn => .log x.ln64 (.div x.f64 false
        (.fin (bestCost x.f32 g.length seqs)) (.fin s.variantCost)) :=
    funext fun s => combinedScore_variant hlm hr _ _ _ s
  rw [hsc] at h6
  have hreg : Regular { states := g.length + 1, finals := [g.length], trs := trs ++ epsilonTrs g.length } := by
    refine ⟨forward_of_ok h2 _ _, ?_, ?_⟩
    · intro q hq
      rw [List.mem_singleton] at hq
      rw [hq]
      exact Nat.lt_succ_self _
    · intro t ht
      rcases List.mem_append.mp ht with ht | ht
      · obtain ⟨sym, m, _, _, a3, a4, _, a6⟩ := h2 t ht
        have hlt := a4.lt
        rcases a6 with ⟨vi, vs, v, _, c2, c3, _, c5⟩ | ⟨_, _, _, _, c5⟩
        · rw [c5]
          exact arc_pos hx.close hx.unit
            (hscore m (List.mem_of_getElem? a3) vs c2 v (List.mem_of_getElem? c3)) (by omega)
        · rw [c5]
          exact unknown_pos _
      · unfold epsilonTrs at ht
        obtain ⟨j, _, rfl⟩ := List.mem_map.mp ht
        show (1 / 20 : Rat) ≤ 100
        norm_num
  have hg0 := List.length_pos_iff.mpr hg.seg.ne
  have hsum : ∀ q ts q', Walk (trs ++ epsilonTrs g.length) q ts q' → 0 ≤ (ts.map Tr.cost).sum := by
    intro q ts q' hwk
    refine List.sum_nonneg ?_
    intro c hc
    obtain ⟨t, ht, rfl⟩ := List.mem_map.mp hc
    exact le_trans (by norm_num) (hreg.costs t (walk_mem hwk t ht))
  have hroute : ∀ s ∈ seqs, ∃ l c, Route x p.variant.freqWeight o g all 0 l c ∧ 0 ≤ c ∧ 0 < s.variantCost ∧
      |s.variantCost - c| ≤ d (g.length + 1) * (1 + c) ∧
      resultMatches all s.tags 0 s.outputSymbols = .ok (picked l) := by
    intro s hs
    obtain ⟨path, hp, hs⟩ := mem_of_forall₂_right hf hs
    obtain ⟨ts, ⟨q, hq, hwk⟩, e1, e0, e2⟩ := hx.solver.sound _ _ _ hreg hp
    rw [List.mem_singleton] at hq
    subst hq
    obtain ⟨l, a1, os, a2, a3⟩ := walk_route h2 ts 0 hwk
    obtain ⟨s1, s2⟩ := sequenceOf_symbols hs
    have s3 := sequenceOf_plain hlm hr hs
    rw [e1, a2] at s1
    cases s1
    obtain ⟨ms', b1, _, b3⟩ := a3 [] 0
    rw [s2, s3]
    refine ⟨l, _, a1, hsum _ _ _ hwk, e0 ?_, e2, by rw [b1, b3 rfl]⟩
    rintro rfl
    have : 0 = g.length := hwk
    omega
  have hpath : ∀ l' c', Route x p.variant.freqWeight o g all 0 l' c' →
      0 ≤ c' ∧ ∃ s ∈ seqs, s.variantCost ≤ c' + d (g.length + 1) * (1 + c') := by
    intro l' c' hr'
    obtain ⟨ts, w1, w2⟩ := route_walk h2 h3 hr'
    obtain ⟨π, hπ, hle⟩ := hx.solver.best _ _ ts hseq hreg ⟨g.length, by simp, w1⟩
    obtain ⟨t, ht, ht'⟩ := mem_of_forall₂_left hf hπ
    rw [← w2]
    refine ⟨hsum _ _ _ w1, t, ht, ?_⟩
    rw [(sequenceOf_symbols ht').2]
    exact hle
  have hsingle : ∀ s ∈ seqs, x.f32.rnd s.variantCost = s.variantCost := by
    intro s hs
    obtain ⟨path, hp, hs⟩ := mem_of_forall₂_right hf hs
    rw [(sequenceOf_symbols hs).2]
    exact hx.single _ _ _ hp
  obtain ⟨bm, hbm⟩ : best.1 ∈ seqs ∧ (d (g.length + 1) ≤ 1 →
      ∀ l' c', Route x p.variant.freqWeight o g all 0 l' c' →
        best.1.variantCost ≤ c' + d (g.length + 1) * (1 + c')) := by
    obtain ⟨b1, b2, b3⟩ := bestCost_le x.f32 g.length seqs
    by_cases hg1 : g.length = 1
    · have hzero : bestCost x.f32 g.length seqs = 0 := by
        rcases b3 with e | ⟨t, ht, e⟩
        · rw [e, hg1]
          simp [x.f32.zero]
        · have hp : 0 < bestCost x.f32 g.length seqs := by
            obtain ⟨_, _, _, _, h0, _⟩ := hroute t ht
            rw [e]
            exact h0
          rw [hg1] at b1
          simp only [Nat.sub_self, Nat.cast_zero, x.f32.zero, zero_mul] at b1
          rw [hg1] at hp
          exact absurd b1 (not_le.mpr hp)
      rw [hzero] at h6
      cases seqs with
      | nil => exact absurd rfl h5
      | cons s seqs =>
        obtain ⟨v, hv⟩ := selectBest_level (x := x) (s := s) (l := seqs) fun t ht => by
          obtain ⟨_, _, _, _, h0, _⟩ := hroute t ht
          exact h0
        rw [hv] at h6
        cases h6
        refine ⟨List.mem_cons_self, fun _ l' c' hr' => ?_⟩
        obtain ⟨ts, w1, w2⟩ := route_walk h2 h3 hr'
        obtain ⟨path, hp, hs⟩ := head_of_forall₂ hf (b := s) rfl
        rw [(sequenceOf_symbols hs).2, ← w2]
        exact hx.solver.first { states := g.length + 1, finals := [g.length], trs := trs ++ epsilonTrs g.length }
          p.maxSeq ts (by show g.length + 1 = 2; omega) hreg ⟨g.length, by simp, w1⟩ path hp
    · by_cases hd : d (g.length + 1) ≤ 1
      · have hst := start_pos hx.close hx.unit (k := g.length) (by omega)
        have hk : (2 : Rat) ≤ g.length := by exact_mod_cast (show 2 ≤ g.length by omega)
        have := selectBest_apart hx (c := bestCost x.f32 g.length seqs) h5 ?_ ?_
          (fun s hs => ⟨b2 s hs, hsingle s hs⟩) ?_ h6
        · refine ⟨this.1, fun _ l' c' hr' => ?_⟩
          obtain ⟨_, t, ht, hle⟩ := hpath l' c' hr'
          exact (this.2 t ht).trans hle
        · rcases b3 with e | ⟨t, ht, e⟩
          · rw [e]
            linarith
          · obtain ⟨_, _, _, _, h0, _⟩ := hroute t ht
            rw [e]
            exact h0
        · rcases b3 with e | ⟨t, ht, e⟩
          · rw [e]
            exact x.f32.idem _
          · rw [e]
            exact hsingle t ht
        · rcases b3 with e | ⟨t, ht, e⟩
          · obtain ⟨l, hl⟩ := route_skips x p.variant.freqWeight o g all g.length 0 (by omega)
            obtain ⟨_, s, hs, hle⟩ := hpath l _ hl
            refine ⟨s, hs, hle.trans ?_⟩
            rw [e]
            nlinarith
          · obtain ⟨_, _, _, _, h0, _⟩ := hroute t ht
            refine ⟨t, ht, ?_⟩
            rw [e]
            linarith
      · obtain ⟨b, c1, c2, _⟩ := selectBest_none (fun s : Seqn => .log x.ln64 (.div x.f64 false
          (.fin (bestCost x.f32 g.length seqs)) (.fin s.variantCost))) seqs h5
        rw [c1] at h6
        cases h6
        exact ⟨c2, fun h => absurd h hd⟩
  obtain ⟨l, c, r1, rc, _, r3, r4⟩ := hroute best.1 bm
  rw [r4] at h7
  refine ⟨l, c, r1, (Except.ok.inj h7).symm, ?_⟩
  intro l' c' hr'
  obtain ⟨rc', _⟩ := hpath l' c' hr'
  have hd0 := hx.error (g.length + 1)
  by_cases hd : d (g.length + 1) ≤ 1
  · have := (abs_le.mp r3).1
    have := hbm hd l' c' hr'
    linarith
  · have := not_le.mp hd
    nlinarith

/-! ## C68 -/

/-- On a route of least cost every word that has a match of its own is covered by a match. -/
theorem route_covers {x : TextExt} (hsmall : ∀ k : Int, |k| ≤ 2 → x.f32.rnd k = k) {fw : Rat} {o : Nat}
    {g : List Seg} {all : List Match}
    (hscore : ∀ m ∈ all, ∀ vs, m.variants = some vs → ∀ v ∈ vs, 0 ≤ v.score x.f64 fw)
    {k : Nat} (hk : ∃ m ∈ all, Span o g k (k + 1) m ∧ ∃ v, m.variants = some v)
    {q : Nat} {l : List Step} {c : Rat} (h : Route x fw o g all q l c) (hq : q ≤ k)
    (hkl : k < g.length) :
    (∃ m ∈ picked l, ∃ s e, Span o g s e m ∧ s ≤ k ∧ k < e) ∨
      ∃ l' c', Route x fw o g all q l' c' ∧ c' ≤ c - 98 := by
  have e1 : x.f32.rnd 1 = 1 := by simpa using hsmall 1 (by decide)
  have e2 : x.f32.rnd 2 = 2 := by simpa using hsmall 2 (by decide)
  induction h with
  | done => omega
  | @skip q l c hlt hrest ih =>
    by_cases hqk : q = k
    · subst hqk
      right
      obtain ⟨m, hm, hs, v, hv⟩ := hk
      cases v with
      | nil =>
        refine ⟨_, _, .unknown hm hs (by simp [Match.isEmpty, hv]) hrest, ?_⟩
        have h1 : ((1 : Nat) : Rat) = 1 := by norm_num
        have h2 : (1 : Rat) + 1 = 2 := by norm_num
        rw [h1, e1, h2, e2]
        linarith
      | cons v vs =>
        refine ⟨_, _, .variant (i := 0) hm hs hv rfl hrest, ?_⟩
        have := hscore m hm _ hv v (by simp)
        have h1 : ((q + 1 - q : Nat) : Rat) = 1 := by norm_num
        have h2 : x.f32.rnd (1 - x.f32.rnd (v.score x.f64 fw)) ≤ 1 :=
          (x.f32.mono _ _ (by linarith [rnd_nonneg x.f32 this])).trans e1.le
        have h3 := x.f32.mono (1 + x.f32.rnd (1 - x.f32.rnd (v.score x.f64 fw))) 2 (by linarith)
        rw [h1, e1]
        linarith
    · rcases ih (by omega) with h1 | ⟨l', c', h1, h2⟩
      · exact .inl h1
      · exact .inr ⟨_, _, .skip hlt h1, by linarith⟩
  | @variant q e' l c m vs i v hm hs hv hi hrest ih =>
    by_cases hqk : k < e'
    · left
      refine ⟨_, List.mem_cons_self, q, e', ?_, hq, hqk⟩
      exact ⟨hs.lt, hs.le, hs.text, hs.first, hs.last, hs.ne, hs.n⟩
    · rcases ih (by omega) with ⟨m', h1, h2⟩ | ⟨l', c', h1, h2⟩
      · exact .inl ⟨m', List.mem_cons_of_mem _ h1, h2⟩
      · exact .inr ⟨_, _, .variant hm hs hv hi h1, by linarith⟩
  | @unknown q l c m hm hs he hrest ih =>
    by_cases hqk : k < q + 1
    · left
      refine ⟨_, List.mem_cons_self, q, q + 1, ?_, hq, hqk⟩
      exact ⟨hs.lt, hs.le, hs.text, hs.first, hs.last, hs.ne, hs.n⟩
    · rcases ih (by omega) with ⟨m', h1, h2⟩ | ⟨l', c', h1, h2⟩
      · exact .inl ⟨m', List.mem_cons_of_mem _ h1, h2⟩
      · exact .inr ⟨_, _, .unknown hm hs he h1, by linarith⟩

/-- A match that covers a word contains it. -/
theorem covers_word {isAlpha : Char → Bool} {o : Nat} {g a b : List Seg} {w s : List Char}
    (hg : IsBatch isAlpha g) (h : g = a ++ [(w, s)] ++ b) {m : Match} {s' e' : Nat}
    (hm : Span o g s' e' m) (h1 : s' ≤ a.length) (h2 : a.length < e') :
    m.first ≤ (spanAt (o + byteLen (flat a)) [(w, s)]).first ∧
      (spanAt (o + byteLen (flat a)) [(w, s)]).last ≤ m.last := by
  have e1 : g.take a.length = a := by rw [h, List.append_assoc, List.take_left]
  have e2 : g.take (a.length + 1) = a ++ [(w, s)] := by rw [h, List.take_left' (by simp)]
  constructor
  · rw [hm.first]
    have := flat_take_mono g h1
    rw [e1] at this
    simp only [spanAt]
    omega
  · rw [hm.last]
    simp only [spanAt, stretch]
    have hle := hm.le
    by_cases c : e' = a.length + 1
    · rw [c, e2, stretch_append _ _ (by simp), byteLen_append, stretch]; omega
    · have := hg.flat_lt_stretch (show 1 ≤ a.length + 1 by omega) (show a.length + 1 < e' by omega) hle
      rw [e2, flat_append, byteLen_append] at this
      simp only [flat, byteLen_append] at this
      omega

theorem looked_span_at {vm : Vm} {x : TextExt} {cfg : TextConfig} {p : TextParams} {m : Match}
    {o : Nat} {g a b : List Seg} {w s : List Char} (h : g = a ++ [(w, s)] ++ b) (hw : w ≠ [])
    (hl : Looked vm x cfg p (spanAt (o + byteLen (flat a)) [(w, s)]) m) :
    Span o g a.length (a.length + 1) m := by
  have := span_of_run (o := o) (r := [(w, s)]) h hw
  rcases hl with rfl | ⟨v, _, rfl⟩
  · exact this
  · exact ⟨this.lt, this.le, this.text, this.first, this.last, this.ne, this.n⟩

theorem words_covered_of_scores {vm : Vm} {x : TextExt} {cfg : TextConfig} {p : TextParams}
    {text : List Char} {segs : List Seg} {ms : List Match} (hsp : x.isAlpha ' ' = false)
    (hlm : vm.haveLm = false) (hr : cfg.contextRules = []) {u : Rat} {d : Nat → Rat}
    (hx : Reckons x p.variant.freqWeight u d) (hseq : 1 ≤ p.maxSeq)
    (hngram : 1 ≤ p.maxNgram) (hu : p.unicodeoffsets = false)
    (hscore : ∀ t vs, vm.findVariants x.toExt cfg.toConfig p.variant t = .ok vs → ∀ v ∈ vs,
      0 ≤ v.score x.f64 p.variant.freqWeight ∧ v.score x.f64 p.variant.freqWeight ≤ 191 / 100)
    (hi : vm.index.isEmpty = false) (hs : Segmented x.isAlpha text segs)
    (hfew : ∀ g ∈ batches [] segs, 200 * g.length * d (g.length + 1) < 49)
    (h : vm.findAllMatches x cfg p text = .ok ms) :
    ∀ w ∈ runsFrom 1 0 segs, ∃ m ∈ ms, m.first ≤ w.first ∧ w.last ≤ m.last := by
  have hbatch : ∀ (pre post : List Char) (g : List Seg) (out : List Match), IsBatch x.isAlpha g →
      200 * g.length * d (g.length + 1) < 49 →
      vm.batchMatches x cfg p (pre ++ flat g ++ post) (boundariesFrom (byteLen pre) g)
        (byteLen pre) (byteLen pre + byteLen (stretch g)) = .ok out →
      ∀ w ∈ runsFrom 1 (byteLen pre) g, ∃ m ∈ out, m.first ≤ w.first ∧ w.last ≤ m.last := by
    intro pre post g out hg hn hout w hwmem
    unfold Vm.batchMatches at hout
    obtain ⟨batch, h1, hout⟩ := bind_ok.mp hout
    split at hout
    · obtain ⟨new, e1, e2, e3⟩ := gatherSegments_ok hsp hg p.maxNgram 1 [] batch (Nat.le_refl 1) h1
      rw [List.nil_append] at e1
      subst e1
      have hspan : ∀ m ∈ batch, ∃ s e, Span (byteLen pre) g s e m := by
        intro m hm
        obtain ⟨k, run, _, _, h2, h3⟩ := e2 m hm
        obtain ⟨s, hs⟩ := h3.span h2
        exact ⟨s, _, hs⟩
      have hsc : ∀ m ∈ batch, ∀ vs, m.variants = some vs → ∀ v ∈ vs,
          0 ≤ v.score x.f64 p.variant.freqWeight ∧ v.score x.f64 p.variant.freqWeight ≤ 191 / 100 := by
        intro m hm vs hvs
        obtain ⟨k, run, _, _, h2, h3⟩ := e2 m hm
        exact hscore _ vs (h3.variants h2 vs hvs)
      obtain ⟨a, r, b, f1, f2, f3, rfl⟩ := mem_runs hwmem
      obtain ⟨⟨wd, sp⟩, rfl⟩ := List.length_eq_one_iff.mp f2
      obtain ⟨m, hm, h2, h3⟩ := e3 1 _ (Nat.le_refl 1) (by omega) hwmem
      obtain ⟨v, hv⟩ := h3 rfl
      have hms := looked_span_at f1 f3 h2
      obtain ⟨l, c, r1, r2, r3⟩ := nearly_cheapest_route hlm hr hx hseq hg
        hspan ⟨m, hm, _, v, hms, hv⟩ (fun m hm vs hvs v hv => (hsc m hm vs hvs v hv).2) hout
      rcases route_covers hx.small (fun m hm vs hvs v hv => (hsc m hm vs hvs v hv).1)
        ⟨m, hm, hms, v, hv⟩ r1 (Nat.zero_le _) (by rw [f1]; simp) with
        ⟨m', c1, s', e', c2, c3, c4⟩ | ⟨l', c', c1, c2⟩
      · exact ⟨m', r2 ▸ c1, covers_word hg f1 c2 c3 c4⟩
      · exfalso
        obtain ⟨l0, h0⟩ := route_skips x p.variant.freqWeight (byteLen pre) g batch g.length 0 (by omega)
        have hle := r3 l' c' c1
        have hle0 := r3 _ _ h0
        have hD := hx.error (g.length + 1)
        have hlen : (1 : Rat) ≤ g.length := by
          have := List.length_pos_iff.mpr hg.seg.ne
          exact_mod_cast this
        generalize d (g.length + 1) = D at *
        generalize (g.length : Rat) = n at *
        have hD' : D ≤ 1 / 3 := by nlinarith
        have hc : c ≤ 200 * n + 1 := by nlinarith
        nlinarith
    · next hc =>
      have := pure_ok.mp hout
      subst this
      have hn : p.maxNgram = 1 := by
        by_contra hcon
        exact hc (.inl (by omega))
      rw [hn] at h1
      have hwords := (gather_unigrams hsp hg).mp h1
      obtain ⟨m, hm, v, _, rfl⟩ := mem_of_forall₂_left hwords hwmem
      exact ⟨_, List.mem_map.mpr ⟨_, hm, rfl⟩, Nat.le_refl _, Nat.le_refl _⟩
  have hrun : ∀ (gs : List (List Seg)) (pre post : List Char) (out : List Match),
      (∀ g ∈ gs, IsBatch x.isAlpha g) → (∀ g ∈ gs, 200 * g.length * d (g.length + 1) < 49) →
      Vm.batchesRun vm x cfg p (pre ++ flat gs.flatten ++ post) (byteLen pre) gs = .ok out →
      ∀ w ∈ runsFrom 1 (byteLen pre) gs.flatten, ∃ m ∈ out, m.first ≤ w.first ∧ w.last ≤ m.last := by
    intro gs
    induction gs with
    | nil => intro pre post out _ _ _ w hw; cases hw
    | cons g gs ih =>
      intro pre post out hg hn hout w hw
      rw [List.flatten_cons, runs1_append, List.mem_append] at hw
      rw [List.flatten_cons, flat_append, Vm.batchesRun] at hout
      obtain ⟨a, h1, hout⟩ := bind_ok.mp hout
      obtain ⟨b, h2, hout⟩ := bind_ok.mp hout
      have := pure_ok.mp hout
      subst this
      have e1 : pre ++ (flat g ++ flat gs.flatten) ++ post =
          pre ++ flat g ++ (flat gs.flatten ++ post) := by simp
      have e2 : pre ++ (flat g ++ flat gs.flatten) ++ post =
          (pre ++ flat g) ++ flat gs.flatten ++ post := by simp
      rw [e1] at h1
      rw [e2, ← byteLen_append] at h2
      rw [← byteLen_append] at hw
      rcases hw with hw | hw
      · obtain ⟨m, hm, h3⟩ := hbatch _ _ _ _ (hg g (by simp)) (hn g (by simp)) h1 w hw
        exact ⟨m, List.mem_append_left _ hm, h3⟩
      · obtain ⟨m, hm, h3⟩ := ih _ _ _ (fun g' h' => hg g' (by simp [h']))
          (fun g' h' => hn g' (by simp [h'])) h2 w hw
        exact ⟨m, List.mem_append_right _ hm, h3⟩
  intro w hw
  by_cases hne : text = []
  · exfalso
    subst hne
    obtain ⟨a, r, b, f1, f2, f3, _⟩ := mem_runs hw
    obtain ⟨⟨wd, sp⟩, rfl⟩ := List.length_eq_one_iff.mp f2
    have := hs.text_eq
    rw [f1, flat_append, flat_append] at this
    simp only [flat, List.append_eq_nil_iff] at this
    exact f3 this.1.2.1.1
  rw [findAllMatches_eq vm x cfg p hne hi hs, hu] at h
  obtain ⟨ms', h1, h2⟩ := bind_ok.mp h
  have := pure_ok.mp h2
  subst this
  obtain ⟨hb, hf⟩ := batches_of hs
  rcases hf with hf | ⟨_, s, e⟩
  · have := hrun (batches [] segs) [] [] ms' hb hfew
    simp only [List.nil_append, List.append_nil, hf, hs.text_eq] at this
    exact this h1 w hw
  · rw [e] at hw
    simp [runsFrom, stretch] at hw

/-- The scores of variants are at least 0 and below 2. -/
theorem variant_scores_between {vm : Vm} {x : TextExt} {cfg : TextConfig} {p : TextParams}
    (h64 : x.f64 = Rounding.exact) (hwt : WeightsOk x.f64 cfg.weights)
    (hconf : MildConfusables x.f64 cfg.confusables)
    (hlinks : ∀ v ∈ vm.decoder, ∀ t s, VariantReference.variantOf t s ∈ v.variants.getD [] →
      0 ≤ s ∧ s ≤ 1) (hfw : 0 ≤ p.variant.freqWeight) (t : List Char) (vs : List VariantResult)
    (h : vm.findVariants x.toExt cfg.toConfig p.variant t = .ok vs) :
    ∀ v ∈ vs, 0 ≤ v.score x.f64 p.variant.freqWeight ∧ v.score x.f64 p.variant.freqWeight < 2 := by
  intro v hv
  obtain ⟨a1, a2⟩ := result_scores_bounded vm x.toExt cfg.toConfig p.variant t vs hwt hconf.weight
    hlinks h v hv
  have a2 := a2.trans_lt (hconf.boost.trans_lt (by norm_num : (19 / 10 : Rat) < 2))
  obtain ⟨b1, b2⟩ := frequency_scores_between vm x.toExt cfg.toConfig p.variant t vs hwt.sum.ne' h v hv
  have e : ∀ y, x.f64.rnd y = y := by intro y; rw [h64]; rfl
  unfold VariantResult.score
  simp only [e]
  split
  · exact ⟨a1, a2⟩
  · have hd : 0 < 1 + p.variant.freqWeight := by linarith
    constructor
    · exact div_nonneg (add_nonneg a1 (mul_nonneg hfw b1)) hd.le
    · rw [div_lt_iff₀ hd]
      have := mul_le_mul_of_nonneg_left b2 hfw
      linarith

/-- The scores of variants are at least 0, and below 2, also in floating point. -/
theorem variant_scores_le {vm : Vm} {x : TextExt} {cfg : TextConfig} {p : TextParams} {u : Rat}
    (hclose : ∀ y, |x.f64.rnd y - y| ≤ u * max 1 |y|) (hu : u ≤ 1 / 1000)
    (hfr : x.f64.rnd p.variant.freqWeight = p.variant.freqWeight) (hwt : WeightsOk x.f64 cfg.weights)
    (hconf : MildConfusables x.f64 cfg.confusables)
    (hlinks : ∀ v ∈ vm.decoder, ∀ t s, VariantReference.variantOf t s ∈ v.variants.getD [] →
      0 ≤ s ∧ s ≤ 1) (hfw : 0 ≤ p.variant.freqWeight) (t : List Char) (vs : List VariantResult)
    (h : vm.findVariants x.toExt cfg.toConfig p.variant t = .ok vs) :
    ∀ v ∈ vs, 0 ≤ v.score x.f64 p.variant.freqWeight ∧ v.score x.f64 p.variant.freqWeight ≤ 191 / 100 := by
  intro v hv
  obtain ⟨a1, a2⟩ := result_scores_bounded vm x.toExt cfg.toConfig p.variant t vs hwt hconf.weight
    hlinks h v hv
  have a2 := a2.trans hconf.boost
  obtain ⟨b1, b2⟩ := frequency_scores_between vm x.toExt cfg.toConfig p.variant t vs hwt.sum.ne' h v hv
  unfold VariantResult.score
  split
  · exact ⟨a1, a2.trans (by norm_num)⟩
  · generalize p.variant.freqWeight = fw at *
    have c1 : 0 ≤ x.f64.rnd (fw * v.freqScore) := rnd_nonneg _ (mul_nonneg hfw b1)
    have c2 : x.f64.rnd (fw * v.freqScore) ≤ fw := by
      calc x.f64.rnd (fw * v.freqScore) ≤ x.f64.rnd fw := x.f64.mono _ _ (by nlinarith)
        _ = fw := hfr
    have c3 : 999 / 1000 * (1 + fw) ≤ x.f64.rnd (1 + fw) := by
      have := (abs_le.mp (hclose (1 + fw))).1
      rw [abs_of_pos (by linarith), max_eq_right (by linarith)] at this
      nlinarith
    have c4 : x.f64.rnd (v.distScore + x.f64.rnd (fw * v.freqScore)) ≤ 1001 / 1000 * (19 / 10 + fw) := by
      refine (x.f64.mono _ (19 / 10 + fw) (by linarith)).trans ?_
      have := (abs_le.mp (hclose (19 / 10 + fw))).2
      rw [abs_of_pos (by linarith), max_eq_right (by linarith)] at this
      nlinarith
    refine ⟨rnd_nonneg _ (div_nonneg (rnd_nonneg _ (by linarith)) (by linarith)), ?_⟩
    refine (x.f64.mono _ (1905 / 1000) ?_).trans ?_
    · rw [div_le_iff₀ (by linarith)]
      nlinarith
    · have := (abs_le.mp (hclose (1905 / 1000))).2
      rw [abs_of_pos (by norm_num), max_eq_right (by norm_num)] at this
      linarith

/-- **C68**: without language model and context rules, no word of the text is lost: each word lies in a
match.  (Sane weights, link scores between 0 and 1, confusables that raise a score by at most nine tenths;
the solver returns a cheapest path, as far as it can tell, and first where paths have one transition; and batches
are not so long that errors of sums may amount to the cost of a word.  With exact arithmetic, `exact_reckons`, they may have any length.) -/
theorem words_covered {vm : Vm} {x : TextExt} {cfg : TextConfig} {p : TextParams}
    {text : List Char} {segs : List Seg} {ms : List Match} (hsp : x.isAlpha ' ' = false)
    (hlm : vm.haveLm = false) (hr : cfg.contextRules = []) {u : Rat} {d : Nat → Rat}
    (hx : Reckons x p.variant.freqWeight u d) (hseq : 1 ≤ p.maxSeq)
    (hngram : 1 ≤ p.maxNgram) (hu : p.unicodeoffsets = false)
    (hwt : WeightsOk x.f64 cfg.weights) (hconf : MildConfusables x.f64 cfg.confusables)
    (hlinks : ∀ v ∈ vm.decoder, ∀ t s, VariantReference.variantOf t s ∈ v.variants.getD [] →
      0 ≤ s ∧ s ≤ 1) (hfw : 0 ≤ p.variant.freqWeight)
    (hi : vm.index.isEmpty = false) (hs : Segmented x.isAlpha text segs)
    (hfew : ∀ g ∈ batches [] segs, 200 * g.length * d (g.length + 1) < 49)
    (h : vm.findAllMatches x cfg p text = .ok ms) :
    ∀ w ∈ runsFrom 1 0 segs, ∃ m ∈ ms, m.first ≤ w.first ∧ w.last ≤ m.last :=
  words_covered_of_scores hsp hlm hr hx hseq hngram hu
    (fun t vs hvs v hv => variant_scores_le hx.close64 hx.unit hx.weight hwt hconf hlinks hfw t vs hvs v hv) hi hs hfew h

/-- Five words, two of them in one match. -/
example : plain.haveLm = false ∧ exTextConfig.contextRules = [] ∧ SolverExact exText.solve ∧
    SolverFirst exText.solve ∧ exText.f32 = .exact ∧ exText.f64 = .exact ∧
    (∀ a b, 0 < a → a < b → exText.ln64 a < exText.ln64 b) ∧ plain.index.isEmpty = false ∧
    (∀ v ∈ plain.decoder, ∀ t s, VariantReference.variantOf t s ∈ v.variants.getD [] →
      0 ≤ s ∧ s ≤ 1) ∧
    ((runsFrom 1 0 [("ab".toList, " ".toList), ("ba".toList, ", ".toList), ("a".toList, "-".toList),
      ("x".toList, " ".toList), ("b".toList, [])]).map fun w => (w.first, w.last)) =
        [(0, 2), (3, 5), (7, 8), (9, 10), (11, 12)] ∧
    (plain.findAllMatches exText exTextConfig exTextParams "ab ba, a-x b".toList).toOption.map
      (·.map fun m => (m.first, m.last)) = some [(0, 2), (3, 5), (7, 10), (11, 12)] := by
  refine ⟨by decide +kernel, rfl, refSolver_exact, refSolver_first, rfl, rfl, ?_, by decide +kernel,
    ?_, by decide +kernel, by decide +kernel⟩
  · intro a b _ h
    show a - 1 < b - 1
    linarith
  · have : ∀ v ∈ plain.decoder, v.variants.getD [] = [] := by decide +kernel
    intro v hv t s h
    rw [this v hv] at h
    cases h

/-- The errors are small enough: there are none. -/
example : Reckons exText exTextParams.variant.freqWeight 0 (fun _ => 0) ∧
    ∀ g ∈ batches [] [("ab".toList, " ".toList), ("ba".toList, ", ".toList), ("a".toList, "-".toList),
      ("x".toList, " ".toList), ("b".toList, [])], 200 * (g.length : Rat) * (fun _ : Nat => (0 : Rat)) (g.length + 1) < 49 :=
  ⟨exText_reckons _, fun g _ => by simp⟩

/-- A solver that returns cheaper paths last. -/
def revSolver (f : Fst) (n : Nat) : List FstPath := (refSolver f n).reverse

theorem revSolver_exact : SolverExact revSolver where
  sound := fun f n π h => refSolver_exact.sound f n π (List.mem_reverse.mp h)
  best := fun f n ts hn hf ha => by
    obtain ⟨π, h1, h2⟩ := refSolver_exact.best f n ts hn hf ha
    exact ⟨π, List.mem_reverse.mpr h1, h2⟩

/-- **C48, C68 are violated** for a batch of a single word if the solver does not return the cheapest
path first: all scores are −∞, so that the first path is chosen whatever its cost.  The word `ab`, which
is in the vocabulary, is not found, although the batch has a route that picks it and costs 1. -/
theorem single_word_lost :
    SolverExact revSolver ∧
    (plain.findAllMatches { exText with solve := revSolver } exTextConfig exTextParams
      "ab".toList).toOption = some [] ∧
    (plain.findVariants exExt exConfig exParams "ab".toList).toOption.map
      (·.map fun v => (v.vocabId, v.distScore)) = some [(3, 1), (5, 11/16)] ∧
    (plain.findAllMatches exText exTextConfig exTextParams "ab".toList).toOption.map
      (·.map fun m => (m.text, m.selected)) = some [("ab".toList, some 0)] :=
  ⟨revSolver_exact, by decide +kernel, by decide +kernel, by decide +kernel⟩

end Verif.Props
