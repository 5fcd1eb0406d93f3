import Verif.Lemmas.Reading
import Verif.Props.Choice
import Verif.Props.LearnTotal

/-!
# What a search in text finds, with language model and context rules (C107)
-/
namespace Verif.Props

open Verif.Spec Verif.Model Verif.Lemmas

/-! ## Merits -/

/-- An output symbol and its stretch. -/
def SymbolFits (all bs : List Match) (s : OutputSymbol) : Prop :=
  (∃ m, all[s.matchIndex]? = some m) ∧ s.boundaryIndex < bs.length ∧
    ((∃ c, (partOf all bs s).choice = some c ∧ s.vocabId = c.2.vocabId ∧
        ∃ m ∈ all, ∃ vs, m.variants = some vs ∧ c.2 ∈ vs) ∨
      ((partOf all bs s).choice = none ∧ s.vocabId = 0))

theorem walk_fits {x : TextExt} {fw : Rat} {o : Nat} {g : List Seg} {all : List Match}
    {syms : List OutputSymbol} {trs : List Tr} (ht : ∀ t ∈ trs, TrOk x fw o g all syms t)
    {ts : List Tr} {q q' : Nat} (hw : Walk (trs ++ epsilonTrs g.length) q ts q')
    {os : List OutputSymbol} (h : lookupSymbols syms (outputs ts) = .ok os) :
    ∀ s ∈ os, SymbolFits all (boundariesFrom o g) s := by
  intro sym hsym
  obtain ⟨l, hl, h1⟩ := mem_lookupSymbols h sym hsym
  unfold outputs at hl
  rw [List.mem_filter, List.mem_map] at hl
  obtain ⟨⟨t, h2, rfl⟩, h3⟩ := hl
  have h4 := walk_mem hw t h2
  rw [List.mem_append] at h4
  rcases h4 with h4 | h4
  · obtain ⟨sym', m, _, a2, a3, a4, a5, a6⟩ := ht t h4
    rw [h1] at a2
    cases a2
    refine ⟨⟨m, a3⟩, by rw [boundariesFrom_length]; have := a4.le; omega, ?_⟩
    unfold partOf
    rw [a3]
    rcases a6 with ⟨vi, vs, v, b1, b2, b3, b4, _⟩ | ⟨b1, _, b3, _⟩
    · exact .inl ⟨(vi, v), by simp [b1, b2, b3], b4, m, List.mem_of_getElem? a3, vs, b2,
        List.mem_of_getElem? b3⟩
    · exact .inr ⟨by simp [b1], b3⟩
  · unfold epsilonTrs at h4
    obtain ⟨j, _, rfl⟩ := List.mem_map.mp h4
    simp at h3

theorem entry_eq {vm : Vm} {all bs : List Match} {s : OutputSymbol} (h : SymbolFits all bs s) :
    (partOf all bs s).entry vm = vm.symbolLexindex s := by
  obtain ⟨_, _, h | h⟩ := h
  · obtain ⟨⟨i, v⟩, h1, h2, _⟩ := h
    unfold Part.entry Vm.symbolLexindex
    rw [h1, h2]
    dsimp only
    split
    · rfl
    · cases vm.decoder[v.vocabId]? <;> rfl
  · unfold Part.entry Vm.symbolLexindex
    rw [h.1, h.2]
    rfl

theorem foldl_fin {r : Rounding} (hr : r = Rounding.exact) (l : List Rat) (z : Rat) :
    (l.map EFloat.fin).foldl (fun (s : EFloat) t => s.add r t) (.fin z) = .fin (z + l.sum) := by
  induction l generalizing z with
  | nil => simp
  | cons a l ih =>
    rw [List.map_cons, List.foldl_cons, List.sum_cons]
    have e : (EFloat.fin z).add r (.fin a) = .fin (z + a) := by rw [hr]; rfl
    rw [e, ih, add_assoc]

/-- All counts are positive. -/
def Counts (vm : Vm) : Prop :=
  ∀ l c, (NGram.fromList l).bind vm.ngrams.get? = some c → 0 < c

theorem transition_fin {vm : Vm} {x : TextExt} (h32 : x.f32 = Rounding.exact) (hd : Counts vm)
    (a b : Option Nat) :
    ∃ t, transition (fun l => (NGram.fromList l).bind vm.ngrams.get?) x a b = .fin t := by
  unfold transition
  split
  · next a b =>
    dsimp only
    cases hc : (NGram.fromList [a, b]).bind vm.ngrams.get? with
    | none => exact ⟨_, rfl⟩
    | some c =>
      have h1 : (0 : Rat) < c := by exact_mod_cast hd _ _ hc
      have h2 : 0 < ((NGram.fromList [a]).bind vm.ngrams.get?).getD 1 := by
        cases hn : (NGram.fromList [a]).bind vm.ngrams.get? with
        | none => exact Nat.one_pos
        | some n => exact hd _ _ hn
      dsimp only
      generalize ((NGram.fromList [a]).bind vm.ngrams.get?).getD 1 = n at *
      have h3 : (0 : Rat) < n := by exact_mod_cast h2
      rw [h32]
      split
      · have hq : (0 : Rat) < c / n := div_pos h1 h3
        simp only [EFloat.div, Rounding.exact, id, h3.ne', if_false, EFloat.log, gt_iff_lt, hq, if_true]
        exact ⟨_, rfl⟩
      · simp only [Rounding.exact, id, EFloat.log, gt_iff_lt, h1, if_true]
        exact ⟨_, rfl⟩
  · exact ⟨_, rfl⟩

theorem perplexity_exact {alphabet : Alphabet} {ops : List Op} {vm : Vm} {x : TextExt}
    (h : (Vm.new alphabet).run ops = .ok vm)
    (hs : ∀ v ∈ vm.decoder, ∀ ws, TokensOf v.text ws → ws.length ≤ 255)
    (h32 : x.f32 = Rounding.exact) (h64 : x.f64 = Rounding.exact)
    (hd : Counts vm)
    {all bs : List Match} {syms : List OutputSymbol} (hfit : ∀ o ∈ syms, SymbolFits all bs o)
    (hid : ∀ o ∈ syms, o.vocabId < vm.decoder.length) {y : EFloat × EFloat}
    (hy : vm.lmScore x syms bs = .ok y) :
    ∃ a, y.2 = .fin a ∧ Perplexity vm x (syms.map (partOf all bs)) a := by
  obtain ⟨parts, tokens, logprob, h1, h2, h3, h4⟩ := lm_score_exact_partial alphabet ops vm x h hs syms
    bs hid (fun o ho => (hfit o ho).2.1)
  rw [h4] at hy
  cases hy
  have hts : ∃ ts : List Rat, List.zipWith (transition (fun l => (NGram.fromList l).bind vm.ngrams.get?) x)
      tokens tokens.tail = ts.map .fin := by
    generalize tokens.tail = tl
    clear h2 h3 h4
    induction tokens generalizing tl with
    | nil => exact ⟨[], by simp⟩
    | cons a l ih =>
      cases tl with
      | nil => exact ⟨[], by simp⟩
      | cons b tl =>
        obtain ⟨ts, h5⟩ := ih tl
        obtain ⟨t, h6⟩ := transition_fin h32 hd a b
        exact ⟨t :: ts, by rw [List.zipWith_cons_cons, h5, h6]; rfl⟩
  obtain ⟨ts, hts⟩ := hts
  have hlen : ts.length = tokens.length - 1 := by
    have := congrArg List.length hts
    simp at this
    omega
  rw [hts, foldl_fin h32, zero_add] at h3
  refine ⟨-1 / ((tokens.length - 1 : Nat) : Rat) * ts.sum, by
    simp only [h3, EFloat.scale, h64, Rounding.exact, id], ?_⟩
  refine ⟨parts.map fun p => p.1 ++ p.2, tokens, ts, ?_, by rw [h2]; rfl, hts, ?_⟩
  · clear h2 h4 hid
    induction h1 with
    | nil => exact .nil
    | @cons s p ss ps h6 _ ih =>
      refine .cons ?_ (ih fun o ho => hfit o (by simp [ho]))
      obtain ⟨h7, b, h8, h9⟩ := h6
      obtain ⟨⟨m, hm⟩, hb, hc⟩ := hfit s (by simp)
      have hsep : (partOf all bs s).sep = b.text := by
        unfold partOf
        rw [hm]
        simp [h8]
      refine ⟨p.1, p.2, rfl, by rw [hsep]; exact h9, ?_⟩
      rcases hc with ⟨c, c1, c2, _⟩ | ⟨c1, c2⟩
      · rcases h7 with ⟨d1, d2⟩ | ⟨d1, d2⟩
        · left
          refine ⟨?_, d2⟩
          intro v hv
          rw [c1] at hv
          cases hv
          rw [← c2, d1]
        · exact .inr ⟨c, c1, by rw [← c2]; exact d1, by rw [← c2]; exact d2⟩
      · rcases h7 with ⟨d1, d2⟩ | ⟨d1, d2⟩
        · left
          refine ⟨?_, d2⟩
          intro v hv
          rw [c1] at hv
          cases hv
        · exact absurd c2 d1
  · rw [hlen]
    ring

theorem contextScore_exact {vm : Vm} {x : TextExt} {rules : List ContextRule} {all bs : List Match}
    {syms : List OutputSymbol} (h32 : x.f32 = Rounding.exact) (h64 : x.f64 = Rounding.exact)
    (hok : ∀ r ∈ rules, RuleOk r) (hfit : ∀ o ∈ syms, SymbolFits all bs o)
    {y : Rat × List (List PatternMatchResult)} (h : vm.testContextRules x rules syms = .ok y) :
    ContextScore vm rules (syms.map (partOf all bs)) y.1 := by
  obtain ⟨A, score, results, h1, h2, _, _, _, h6, h7⟩ := context_rules vm x rules syms hok
  rw [h1] at h
  cases h
  have he : (syms.map (partOf all bs)).map (Part.entry vm) = syms.map vm.symbolLexindex := by
    rw [List.map_map]
    exact List.map_congr_left fun s hs => entry_eq (hfit s hs)
  refine ⟨A, by rw [he]; exact h2, ?_⟩
  by_cases hA : A = []
  · exact .inl ⟨hA, h6 hA⟩
  · obtain ⟨scores, s1, s2, s3, s4⟩ := h7 hA
    refine .inr ⟨hA, scores, by simpa using s1, s2, by simpa using s3, ?_⟩
    have hsum : ∀ (l : List Rat) (z : Rat), l.foldl (fun s y => x.f32.rnd (s + y)) z = z + l.sum := by
      intro l
      induction l with
      | nil => intro z; simp
      | cons a l ih =>
        intro z
        rw [List.foldl_cons, ih, List.sum_cons, h32]
        simp only [Rounding.exact, id]
        ring
    rw [s4, h64, hsum]
    simp [Rounding.exact]

theorem contextScore_none (vm : Vm) (l : List (Part VariantResult)) : ContextScore vm [] l 1 :=
  ⟨[], greedy_nil _, .inl ⟨rfl, rfl⟩⟩

/-- What a candidate sequence says of its reading. -/
theorem sequence_merit {alphabet : Alphabet} {ops : List Op} {vm : Vm} {x : TextExt}
    {cfg : TextConfig} {p : TextParams} (h : (Vm.new alphabet).run ops = .ok vm)
    (h32 : x.f32 = Rounding.exact) (h64 : x.f64 = Rounding.exact)
    (hlm : vm.haveLm = true → 0 < p.lmWeight → Counts vm ∧
      ∀ v ∈ vm.decoder, ∀ ws, TokensOf v.text ws → ws.length ≤ 255)
    (hok : ∀ r ∈ cfg.contextRules, RuleOk r) (hpos : ∀ r ∈ cfg.contextRules, 0 < r.score)
    {all bs : List Match} {syms : List OutputSymbol} {path : FstPath} {s : Seqn}
    (hs : vm.sequenceOf x cfg p bs syms path = .ok s)
    (hfit : ∀ o ∈ s.outputSymbols, SymbolFits all bs o)
    (hid : ∀ o ∈ s.outputSymbols, o.vocabId < vm.decoder.length) :
    (if (vm.haveLm && decide (0 < p.lmWeight)) = true then
      Perplexity vm x (s.outputSymbols.map (partOf all bs)) (meritOf vm p s).perplexity
      else (meritOf vm p s).perplexity = 1) ∧
    ContextScore vm cfg.contextRules (s.outputSymbols.map (partOf all bs)) s.contextScore ∧
    (vm.haveLm = true ∧ 0 < p.lmWeight → s.perplexity = .fin (meritOf vm p s).perplexity) ∧
    0 < s.contextScore := by
  obtain ⟨hs1, hs2⟩ := sequenceOf_symbols hs
  unfold Vm.sequenceOf at hs
  rw [hs1] at hs
  obtain ⟨os, ho, hs⟩ := bind_ok.mp hs
  cases ho
  have rest : ∀ pp : EFloat, (if cfg.contextRules.isEmpty = true then
      (pure { outputSymbols := s.outputSymbols, variantCost := path.weight, perplexity := pp, contextScore := 1, tags := [] } : Res Seqn)
      else do
        let r ← vm.testContextRules x cfg.contextRules s.outputSymbols
        pure { outputSymbols := s.outputSymbols, variantCost := path.weight, perplexity := pp, contextScore := r.1, tags := tagsOf r.2 }) =
      .ok s → s.perplexity = pp ∧
        ContextScore vm cfg.contextRules (s.outputSymbols.map (partOf all bs)) s.contextScore ∧
        0 < s.contextScore := by
    intro pp h
    split at h
    · next hc =>
      have hr : cfg.contextRules = [] := by simpa using hc
      have := pure_ok.mp h
      refine ⟨by rw [← this], ?_⟩
      have e : s.contextScore = 1 := by rw [← this]
      rw [hr, e]
      exact ⟨contextScore_none vm _, one_pos⟩
    · obtain ⟨r, h1, h2⟩ := bind_ok.mp h
      have := pure_ok.mp h2
      refine ⟨by rw [← this], ?_⟩
      have e : s.contextScore = r.1 := by rw [← this]
      rw [e]
      exact ⟨contextScore_exact h32 h64 hok hfit h1, contextScore_pos h32 h64 hok hpos h1⟩
  dsimp only at hs
  split at hs
  · next hc =>
    obtain ⟨y, h1, hs⟩ := bind_ok.mp hs
    obtain ⟨r1, r2, r3⟩ := rest _ hs
    obtain ⟨hd, ht⟩ := hlm hc.1 hc.2
    obtain ⟨a, a1, a2⟩ := perplexity_exact h ht h32 h64 hd hfit hid h1
    have e : (meritOf vm p s).perplexity = a := by
      unfold meritOf
      dsimp only
      rw [if_pos hc, r1, a1]
    refine ⟨?_, r2, fun _ => ?_, r3⟩
    · rw [if_pos (by simpa using hc), e]
      exact a2
    · rw [e, r1, a1]
  · next hc =>
    obtain ⟨r1, r2, r3⟩ := rest _ hs
    refine ⟨?_, r2, fun h => absurd h hc, r3⟩
    rw [if_neg (by simpa using hc)]
    unfold meritOf
    dsimp only
    rw [if_neg hc]

/-- **C107**: the score of a sequence, whatever the sign of its perplexity. -/
theorem sequence_overall {vm : Vm} {x : TextExt} {cfg : TextConfig} {p : TextParams} {k : Nat}
    (h32 : x.f32 = Rounding.exact) (h64 : x.f64 = Rounding.exact) (hln : x.ln64 1 = 0) (hk : 2 ≤ k)
    (hw : 0 < p.lmWeight + p.variantmodelWeight + p.contextrulesWeight)
    (seqs : List Seqn) (hne : seqs ≠ [])
    (hpp : vm.haveLm = true ∧ 0 < p.lmWeight → ∀ s ∈ seqs, s.perplexity = .fin (meritOf vm p s).perplexity)
    (hcost : ∀ s ∈ seqs, 0 < s.variantCost) (hctx : ∀ s ∈ seqs, 0 < s.contextScore) :
    ∃ best : Merit,
      (if (vm.haveLm && decide (0 < p.lmWeight)) = true then
        IsLeast {y | y = 999999 ∨ ∃ s ∈ seqs, y = (meritOf vm p s).perplexity} best.perplexity
        else best.perplexity = 1) ∧
      IsLeast {y | y = ((k - 1 : Nat) : Rat) * 2 ∨ ∃ s ∈ seqs, y = s.variantCost} best.cost ∧
      IsGreatest {y | ∃ s ∈ seqs, y = s.contextScore} best.context ∧
      ∀ s ∈ seqs, vm.combinedScore x cfg p (bestPerplexity seqs) (bestCost x.f32 k seqs)
        (bestContext seqs) s = overallMerit (scoringOf vm x cfg p) best (meritOf vm p s) := by
  have c1 := bestCost_least x.f32 k seqs
  rw [h32] at c1
  simp only [Rounding.exact, id] at c1
  have cpos : 0 < bestCost x.f32 k seqs := by
    rw [h32]
    rcases c1.1 with h | ⟨s, hs, h⟩
    · have h1 : (1 : Rat) ≤ ((k - 1 : Nat) : Rat) := by exact_mod_cast (show 1 ≤ k - 1 by omega)
      have h2 : (0 : Rat) < ((k - 1 : Nat) : Rat) * 2 := by linarith
      exact lt_of_lt_of_eq h2 h.symm
    · exact lt_of_lt_of_eq (hcost s hs) h.symm
  have g1 := bestContext_greatest seqs
  obtain ⟨s0, hs0⟩ := List.exists_mem_of_ne_nil _ hne
  have gpos : 0 < bestContext seqs :=
    lt_of_lt_of_le (hctx s0 hs0) (g1.2 (.inr ⟨s0, hs0, rfl⟩))
  have g2 : IsGreatest {y | ∃ s ∈ seqs, y = s.contextScore} (bestContext seqs) := by
    refine ⟨?_, fun y hy => g1.2 (.inr hy)⟩
    rcases g1.1 with h | h
    · exact absurd h gpos.ne'
    · exact h
  by_cases hlm : vm.haveLm = true ∧ 0 < p.lmWeight
  · have hpp := hpp hlm
    obtain ⟨b, b1, b2⟩ := bestPerplexity_least (fun s => (meritOf vm p s).perplexity) seqs hpp
    refine ⟨⟨b, bestCost x.f32 k seqs, bestContext seqs⟩, ?_, ?_, g2, ?_⟩
    · rw [if_pos (by simpa using hlm)]; exact b2
    · rw [h32]; exact c1
    intro s hs
    have r2 := hcost s hs
    have r3 := hctx s hs
    have hle : b ≤ (meritOf vm p s).perplexity := b2.2 (.inr ⟨s, hs, rfl⟩)
    have ha := hpp s hs
    have hc : (meritOf vm p s).cost = s.variantCost := rfl
    have hx : (meritOf vm p s).context = s.contextScore := rfl
    generalize meritOf vm p s = a at *
    have hmix : mixOf vm cfg p = ⟨p.lmWeight, p.variantmodelWeight, p.contextrulesWeight⟩ := by
      unfold mixOf
      rw [if_neg]
      rintro ⟨h | h, _⟩
      · rw [hlm.1] at h; cases h
      · exact absurd h hlm.2.ne'
    have hcond : ¬ (((!vm.haveLm) = true ∨ p.lmWeight = 0) ∧
        (cfg.contextRules.isEmpty = true ∨ p.contextrulesWeight = 0)) := by
      rintro ⟨h | h, _⟩
      · rw [hlm.1] at h; cases h
      · exact absurd h hlm.2.ne'
    have d2 := div_pos cpos r2
    have d3 := div_pos r3 gpos
    have e : EFloat.log x.ln64 (.div x.f64 true (.fin b) (.fin a.perplexity)) =
        lnRatio x.ln64 b a.perplexity := by
      unfold lnRatio
      rw [h64]
      by_cases h0 : a.perplexity = 0
      · rw [if_pos h0]
        rw [h0] at hle ⊢
        by_cases hb : b = 0
        · simp [EFloat.div, EFloat.divZero, hb, EFloat.log]
        · have hb' : b < 0 := lt_of_le_of_ne hle hb
          simp [EFloat.div, EFloat.divZero, hb, hb', EFloat.log]
      · rw [if_neg h0]
        simp only [EFloat.div, Rounding.exact, id, h0, if_false, EFloat.log, gt_iff_lt]
        split
        · rfl
        · by_cases hb : b = 0
          · simp [hb]
          · simp [hb, h0]
    unfold Vm.combinedScore overallMerit scoringOf
    simp only
    rw [if_neg hcond, if_pos hlm, b1, ha, e, hmix, hc, hx, h64]
    cases lnRatio x.ln64 b a.perplexity with
    | nan =>
      simp only [EFloat.div, Rounding.exact, id, r2.ne', gpos.ne', if_false, EFloat.log,
        gt_iff_lt, d2, d3, if_true, EFloat.scale, EFloat.add, hw.ne']
    | negInf =>
      simp only [EFloat.div, Rounding.exact, id, r2.ne', gpos.ne', if_false, EFloat.log,
        gt_iff_lt, d2, d3, if_true, EFloat.scale, EFloat.add, hw.ne', hlm.2, hw]
    | posInf =>
      simp only [EFloat.div, Rounding.exact, id, r2.ne', gpos.ne', if_false, EFloat.log,
        gt_iff_lt, d2, d3, if_true, EFloat.scale, EFloat.add, hw.ne', hlm.2, hw]
    | fin y =>
      simp only [EFloat.div, Rounding.exact, id, r2.ne', gpos.ne', if_false, EFloat.log,
        gt_iff_lt, d2, d3, if_true, EFloat.scale, EFloat.add, hw.ne']
  · refine ⟨⟨1, bestCost x.f32 k seqs, bestContext seqs⟩, ?_, ?_, g2, ?_⟩
    · rw [if_neg (by simpa using hlm)]
    · rw [h32]; exact c1
    intro s hs
    have r2 := hcost s hs
    have r3 := hctx s hs
    have hm : (meritOf vm p s).perplexity = 1 := by
      unfold meritOf
      rw [if_neg hlm]
    have hc' : (meritOf vm p s).cost = s.variantCost := rfl
    have hx : (meritOf vm p s).context = s.contextScore := rfl
    have d2 := div_pos cpos r2
    have d3 := div_pos r3 gpos
    unfold Vm.combinedScore overallMerit scoringOf mixOf lnRatio
    simp only
    rw [if_neg hlm, h64, hm, hc', hx, if_neg one_ne_zero, div_one, if_pos one_pos, hln]
    by_cases hc : (vm.haveLm = false ∨ p.lmWeight = 0) ∧
        (cfg.contextRules = [] ∨ p.contextrulesWeight = 0)
    · rw [if_pos hc, if_pos (by simpa using hc)]
      simp only [EFloat.div, Rounding.exact, id, r2.ne', if_false, EFloat.log,
        gt_iff_lt, d2, if_true]
      congr 1
      ring
    · rw [if_neg hc, if_neg (by simpa using hc)]
      simp only [EFloat.div, Rounding.exact, id, r2.ne', gpos.ne', if_false, EFloat.log,
        gt_iff_lt, d2, d3, if_true, EFloat.scale, EFloat.add, hw.ne']

/-- Perplexities are positive if every counted pair is rarer than its first token. -/
theorem perplexity_positive {vm : Vm} {x : TextExt} (h32 : x.f32 = Rounding.exact)
    (hln : ∀ a, 0 < a → a < 1 → x.ln32 a < 0) (hd : Discounted vm) {l : List (Part VariantResult)} {y : Rat}
    (h : Perplexity vm x l y) : 0 < y := by
  obtain ⟨ls, tokens, ts, _, h2, h3, rfl⟩ := h
  have hall : ∀ t ∈ ts, t < 0 := by
    intro t ht
    have h4 : EFloat.fin t ∈ ts.map .fin := List.mem_map.mpr ⟨t, ht, rfl⟩
    rw [← h3, List.mem_iff_getElem] at h4
    obtain ⟨i, hi, h4⟩ := h4
    rw [List.getElem_zipWith] at h4
    rw [List.length_zipWith] at hi
    obtain ⟨u, h5, h6⟩ := transition_neg h32 hln hd (tokens[i]'(by omega)) (tokens.tail[i]'(by omega))
    rw [h4] at h5
    cases h5
    exact h6
  have hne : ts ≠ [] := by
    intro h0
    have := congrArg List.length h3
    rw [h0, h2] at this
    simp at this
  have hlen : (0 : Rat) < ts.length := by exact_mod_cast List.length_pos_of_ne_nil hne
  have hs : ts.sum < 0 := by
    clear h3 hlen
    induction ts with
    | nil => exact absurd rfl hne
    | cons t ts ih =>
      rw [List.sum_cons]
      have h4 := hall t (by simp)
      by_cases h0 : ts = []
      · subst h0; simpa using h4
      · have := ih (fun u hu => hall u (by simp [hu])) h0
        linarith
  rw [← neg_div]
  exact div_pos (by linarith) hlen

/-- **C107**: if all perplexities are positive, the chosen reading of a batch of several words is one with the
highest mean, among the `n` cheapest. -/
theorem chosen_mixed {V : Type} {S : Scoring V} {n o : Nat} {g : List Seg} {l : List (Part V)}
    (hpos : ∀ l y, S.perplexity l y → 0 < y) (hg : g.length ≠ 1) (h : ChosenReading S n o g l) :
    ∃ rs a best, CheapReadings S o g n rs ∧ (l, a) ∈ rs ∧ BestMerit S g.length rs best ∧
      ∀ r ∈ rs, mixed S.ln S.mix best r.2 ≤ mixed S.ln S.mix best a := by
  obtain ⟨rs, a, h1, h2, _, h6⟩ := h
  obtain ⟨best, hb, h8⟩ := h6 hg
  have hp : ∀ r ∈ rs, 0 < r.2.perplexity := by
    intro r hr
    have := (h1.merits r hr).perplexity
    split at this
    · exact hpos _ _ this
    · rw [this]; exact one_pos
  have hbp : 0 < best.perplexity := by
    have := hb.perplexity
    split at this
    · rcases this.1 with h | ⟨r, hr, h⟩
      · rw [h]; norm_num
      · rw [h]; exact hp r hr
    · rw [this]; exact one_pos
  have e : ∀ r ∈ rs, overallMerit S best r.2 = .fin (mixed S.ln S.mix best r.2) := by
    intro r hr
    have h0 := hp r hr
    unfold overallMerit lnRatio mixed
    rw [if_neg h0.ne', if_pos (div_pos hbp h0)]
  have h9 := h8 (by rw [e _ h2]; simp)
  refine ⟨rs, a, best, h1, h2, hb, ?_⟩
  intro r hr
  have := h9 r hr
  rw [e r hr, e _ h2] at this
  simpa [EFloat.gt] using this

/-- The choice among several: the first if its score is not a number, otherwise one with the highest. -/
theorem selectBest_max (score : Seqn → EFloat) (s : Seqn) (l : List Seqn) :
    ∃ b, selectBest score (s :: l) none = some (b, score b) ∧ b ∈ s :: l ∧
      (score s = .nan → b = s) ∧
      (score s ≠ .nan → score b ≠ .nan ∧ ∀ t ∈ s :: l, (score t).gt (score b) = false) := by
  rw [selectBest]
  suffices h : ∀ (l seen : List Seqn) (b : Seqn), b ∈ seen → (score s = .nan → b = s) →
      (score s ≠ .nan → score b ≠ .nan ∧ ∀ t ∈ seen, (score t).gt (score b) = false) →
      ∃ b', selectBest score l (some (b, score b)) = some (b', score b') ∧ b' ∈ seen ++ l ∧
        (score s = .nan → b' = s) ∧
        (score s ≠ .nan → score b' ≠ .nan ∧ ∀ t ∈ seen ++ l, (score t).gt (score b') = false) by
    have := h l [s] s (by simp) (fun _ => rfl) (fun hs => ⟨hs, by
      intro t ht
      rw [List.mem_singleton] at ht
      subst ht
      cases score t <;> simp [EFloat.gt]⟩)
    simpa using this
  clear l
  intro l
  induction l with
  | nil =>
    intro seen b h1 h2 h3
    exact ⟨b, rfl, by simpa using h1, h2, by simpa using h3⟩
  | cons a l ih =>
    intro seen b h1 h2 h3
    rw [selectBest]
    by_cases hg : (score a).gt (score b) = true
    · rw [if_pos hg]
      obtain ⟨b', k1, k2, k3, k4⟩ := ih (seen ++ [a]) a (by simp) (by
        intro hs
        rw [h2 hs, hs] at hg
        cases ha : score a <;> rw [ha] at hg <;> cases hg) (by
        intro hs
        obtain ⟨h4, h5⟩ := h3 hs
        refine ⟨by intro ha; rw [ha] at hg; simp [EFloat.gt] at hg, ?_⟩
        intro t ht
        rcases List.mem_append.mp ht with ht | ht
        · have := h5 t ht
          revert hg this h4
          cases score t <;> cases score a <;> cases score b <;> simp [EFloat.gt]
          intro h6 h7
          exact h7.trans h6.le
        · rw [List.mem_singleton] at ht
          subst ht
          cases score t <;> simp [EFloat.gt])
      exact ⟨b', k1, by simpa using k2, k3, by simpa using k4⟩
    · rw [if_neg hg]
      obtain ⟨b', k1, k2, k3, k4⟩ := ih (seen ++ [a]) b (by simp [h1]) h2 (by
        intro hs
        obtain ⟨h4, h5⟩ := h3 hs
        refine ⟨h4, ?_⟩
        intro t ht
        rcases List.mem_append.mp ht with ht | ht
        · exact h5 t ht
        · rw [List.mem_singleton] at ht
          subst ht
          simpa using hg)
      exact ⟨b', k1, by simpa using k2, k3, by simpa using k4⟩

/-! ## What is shown -/

theorem walk_shows {vm : Vm} {x : TextExt} {cfg : TextConfig} {p : TextParams} {fw : Rat} {n o : Nat}
    {g : List Seg} {all : List Match} (hg : IsBatch x.isAlpha g)
    (hall : Stretches (VariantsOf vm x cfg p) n o g all)
    {syms : List OutputSymbol} {trs : List Tr} (ht : ∀ t ∈ trs, TrOk x fw o g all syms t)
    {ts : List Tr} {q q' : Nat} (hw : Walk (trs ++ epsilonTrs g.length) q ts q')
    {os : List OutputSymbol} (h : lookupSymbols syms (outputs ts) = .ok os) :
    ∀ s ∈ os, ∃ m0, all[s.matchIndex]? = some m0 ∧
      ShowsPart vm x cfg p (partOf all (boundariesFrom o g) s) { m0 with selected := s.variantIndex } := by
  intro sym hsym
  obtain ⟨l, hl, h1⟩ := mem_lookupSymbols h sym hsym
  unfold outputs at hl
  rw [List.mem_filter, List.mem_map] at hl
  obtain ⟨⟨t, h2, rfl⟩, h3⟩ := hl
  have h4 := walk_mem hw t h2
  rw [List.mem_append] at h4
  rcases h4 with h4 | h4
  · obtain ⟨sym', m, _, a2, a3, a4, a5, a6⟩ := ht t h4
    rw [h1] at a2
    cases a2
    refine ⟨m, a3, ?_⟩
    have hlast : m.last = m.first + byteLen m.text := by
      obtain ⟨a, r, b, _, _, _, v, rfl, _⟩ := hall.sound m (List.mem_of_getElem? a3)
      rfl
    obtain ⟨r, w, s, k1, k2, k3, k4, k5, k6, k7⟩ := stretches_words hg hall (List.mem_of_getElem? a3) a4
    unfold partOf
    rw [a3]
    rcases a6 with ⟨vi, vs, v, b1, b2, b3, b4, _⟩ | ⟨b1, b2, b3, b4, _⟩
    · rcases k7 with ⟨vs', k7, k8, k9⟩ | ⟨k7, _⟩
      · rw [k7] at b2
        cases b2
        rw [← k6] at k8
        exact ⟨rfl, rfl, hlast, by simp [b1, k7, b3], vs, k7, k8, by simp [b1, k7, b3]⟩
      · rw [k7] at b2
        cases b2
    · have hr : r = [] := List.eq_nil_of_length_eq_zero (by omega)
      rcases k7 with ⟨vs', k7, k8, k9⟩ | ⟨_, k7⟩
      · rw [← k6] at k8
        exact ⟨rfl, rfl, hlast, by simp [b1], vs', k7, k8, by simp [b1]⟩
      · exact absurd hr k7
  · unfold epsilonTrs at h4
    obtain ⟨j, _, rfl⟩ := List.mem_map.mp h4
    simp at h3

theorem results_show {vm : Vm} {x : TextExt} {cfg : TextConfig} {p : TextParams} {all bs : List Match}
    {tags : List (List (Nat × Nat))} {os : List OutputSymbol} :
    ∀ {i : Nat} {ms : List Match}, resultMatches all tags i os = .ok ms →
      (∀ s ∈ os, ∃ m0, all[s.matchIndex]? = some m0 ∧
        ShowsPart vm x cfg p (partOf all bs s) { m0 with selected := s.variantIndex }) →
      List.Forall₂ (ShowsPart vm x cfg p) (os.map (partOf all bs)) ms := by
  induction os with
  | nil =>
    intro i ms h _
    cases h
    exact .nil
  | cons o os ih =>
    intro i ms h hs
    obtain ⟨m0, h1, h2⟩ := hs o (by simp)
    rw [resultMatches, h1] at h
    obtain ⟨rest, h3, h⟩ := bind_ok.mp h
    have := pure_ok.mp h
    subst this
    refine .cons ?_ (ih h3 fun s hs' => hs s (by simp [hs']))
    split
    · exact h2
    · exact h2

/-! ## Batches -/

theorem forall₂_nodup {α β γ : Type} {R : α → β → Prop} {f : β → γ} {as : List α} {bs : List β}
    (h : List.Forall₂ R as bs) (hn : as.Nodup)
    (hinj : ∀ a ∈ as, ∀ a' ∈ as, ∀ b b', R a b → R a' b' → f b = f b' → a = a') : (bs.map f).Nodup := by
  induction h with
  | nil => exact .nil
  | @cons a b as bs h1 h2 ih =>
    rw [List.nodup_cons] at hn
    rw [List.map_cons, List.nodup_cons]
    refine ⟨?_, ih hn.2 fun a ha a' ha' => hinj a (by simp [ha]) a' (by simp [ha'])⟩
    intro hm
    obtain ⟨b', hb', e⟩ := List.mem_map.mp hm
    obtain ⟨a', ha', h3⟩ := mem_of_forall₂_right h2 hb'
    exact hn.1 (hinj a (by simp) a' (by simp [ha']) b b' h1 h3 e.symm ▸ ha')

/-- The reading of a batch. -/
theorem batch_reads {alphabet : Alphabet} {ops : List Op} {vm : Vm} {x : TextExt}
    {cfg : TextConfig} {p : TextParams} (hrun : (Vm.new alphabet).run ops = .ok vm)
    (h32 : x.f32 = Rounding.exact) (h64 : x.f64 = Rounding.exact)
    (hln1 : x.ln64 1 = 0)
    (hlm : vm.haveLm = true → 0 < p.lmWeight → Counts vm ∧
      ∀ v ∈ vm.decoder, ∀ ws, TokensOf v.text ws → ws.length ≤ 255)
    (hok : ∀ r ∈ cfg.contextRules, RuleOk r) (hpos : ∀ r ∈ cfg.contextRules, 0 < r.score)
    (hwl : 0 ≤ p.lmWeight) (hwv : 0 < p.variantmodelWeight) (hwc : 0 ≤ p.contextrulesWeight)
    (hsolve : SolverBest x.solve) (hsp : x.isAlpha ' ' = false)
    (hwt : WeightsOk x.f64 cfg.weights) (hconf : MildConfusables x.f64 cfg.confusables)
    (hlinks : ∀ v ∈ vm.decoder, ∀ t s, VariantReference.variantOf t s ∈ v.variants.getD [] →
      0 ≤ s ∧ s ≤ 1) (hfw : 0 ≤ p.variant.freqWeight) (hn : 1 ≤ p.maxNgram)
    (hmode : 1 < p.maxNgram ∨ vm.haveLm = true ∨ cfg.contextRules ≠ [])
    {pre post : List Char} {g : List Seg} (hg : IsBatch x.isAlpha g)
    {ms : List Match}
    (h : vm.batchMatches x cfg p (pre ++ flat g ++ post) (boundariesFrom (byteLen pre) g)
      (byteLen pre) (byteLen pre + byteLen (stretch g)) = .ok ms) :
    ∃ l, ChosenReading (scoringOf vm x cfg p) p.maxSeq (byteLen pre) g l ∧ List.Forall₂ (ShowsPart vm x cfg p) l ms := by
  unfold Vm.batchMatches at h
  obtain ⟨all, h1, h⟩ := bind_ok.mp h
  rw [if_pos (by simpa using hmode)] at h
  obtain ⟨g1, g2⟩ := gathered_matches hsp hg h1
  have hall : Stretches (VariantsOf vm x cfg p) p.maxNgram (byteLen pre) g all := ⟨g1, g2⟩
  have hplace := gatherSegments_places hsp hg _ _ _ _ (Nat.le_refl 1) h1 .nil (by simp)
  generalize byteLen pre = o at *
  have hspan : ∀ m ∈ all, ∃ s e, Span o g s e m := by
    intro m hm
    obtain ⟨a, r, b, f1, _, f3, v, rfl, _⟩ := g1 m hm
    have hs := span_of_run (o := o) f1 f3
    exact ⟨_, _, hs.lt, hs.le, hs.text, hs.first, hs.last, hs.ne, hs.n⟩
  have hvar : ∀ m ∈ all, ∀ vs, m.variants = some vs →
      vm.findVariants x.toExt cfg.toConfig p.variant m.text = .ok vs := by
    intro m hm vs hvs
    obtain ⟨a, r, b, _, _, _, v, rfl, f4⟩ := g1 m hm
    rcases f4 with ⟨vs', rfl, f5, _⟩ | ⟨rfl, _⟩
    · cases hvs
      exact f5
    · cases hvs
  have hsc : ∀ m ∈ all, ∀ vs, m.variants = some vs → ∀ v ∈ vs,
      v.score x.f64 p.variant.freqWeight < 2 := fun m hm vs hvs v hv =>
    (variant_scores_between h64 hwt hconf hlinks hfw _ _ (hvar m hm vs hvs) v hv).2
  obtain ⟨a, w, s, b, f1, f2⟩ := IsBatch_word hg
  obtain ⟨vs, _, hm⟩ := g2 a [(w, s)] b f1 (by simp; omega) f2 (.inl rfl)
  have hws := span_of_run (o := o) (r := [(w, s)]) f1 f2
  have hword : ∃ m ∈ all, ∃ s v, Span o g s (s + 1) m ∧ m.variants = some v :=
    ⟨_, hm, a.length, vs, ⟨hws.lt, hws.le, hws.text, hws.first, hws.last, hws.ne, hws.n⟩, rfl⟩
  have hids : ∀ m ∈ all, ∀ vs, m.variants = some vs → ∀ v ∈ vs, v.vocabId < vm.decoder.length :=
    fun m hm vs hvs => find_variants_ids hwt.sum.ne' (hvar m hm vs hvs)
  have hpos_len : 0 < g.length := by rw [f1]; simp
  obtain ⟨syms, trs, seqs, best, h1, h2, h3, h4, h5, h6, h7⟩ := mostLikelySequence_best hg hspan hword h
  have hlab : Labels all.length syms trs := by
    have h1' := h1
    rw [← boundariesFrom_length o g] at h1'
    exact buildFst_labels h1'
  obtain ⟨tss, t1, t2, t3, t4, t5, t6⟩ := hsolve
    { states := g.length + 1, finals := [g.length], trs := trs ++ epsilonTrs g.length } p.maxSeq
  have hnod : tss.Nodup := t3 (trs_nodup hlab fun t ht => by obtain ⟨_, _, h, _⟩ := h2 t ht; exact h)
  have hfwd : Forward { states := g.length + 1, finals := [g.length], trs := trs ++ epsilonTrs g.length } := by
    intro t ht
    rcases List.mem_append.mp ht with ht | ht
    · obtain ⟨_, _, _, _, _, h, _⟩ := h2 t ht
      exact h.lt
    · unfold epsilonTrs at ht
      obtain ⟨j, _, rfl⟩ := List.mem_map.mp ht
      simp
  have hwalk : ∀ ts ∈ tss, Walk (trs ++ epsilonTrs g.length) 0 ts g.length := by
    intro ts hts
    obtain ⟨q, hq, hw⟩ := t2 ts hts
    rw [List.mem_singleton] at hq
    exact hq ▸ hw
  have hf := sequencesOf_ok.mp h4
  rw [t1, List.forall₂_map_left_iff] at hf
  have hpair : ∀ s ∈ seqs, ∃ ts ∈ tss, lookupSymbols syms (outputs ts) = .ok s.outputSymbols ∧
      s.variantCost = (ts.map Tr.cost).sum ∧ vm.sequenceOf x cfg p (boundariesFrom o g) syms
        { weight := (ts.map Tr.cost).sum, olabels := outputs ts } = .ok s := by
    intro s hs
    obtain ⟨ts, hts, h8⟩ := mem_of_forall₂_right hf hs
    exact ⟨ts, hts, (sequenceOf_symbols h8).1, (sequenceOf_symbols h8).2, h8⟩
  have h0 : 0 < vm.decoder.length := by
    have := (inv_run (inv_new alphabet) hrun).1.bos
    unfold textAt at this
    obtain ⟨v, hv, _⟩ := Option.map_eq_some_iff.mp this
    exact (List.getElem?_eq_some_iff.mp hv).1
  have hidS : ∀ s ∈ seqs, ∀ o ∈ s.outputSymbols, o.vocabId < vm.decoder.length := by
    intro s hs sym hsym
    obtain ⟨ts, hts, h8, _⟩ := hpair s hs
    rcases (walk_symbols h2 (hwalk ts hts) h8 sym hsym).2 with h | ⟨m, hm, vs, hv, v, hv', h⟩
    · rw [h]; exact h0
    · rw [h]; exact hids m hm vs hv v hv'
  have hcost : ∀ s ∈ seqs, 0 < s.variantCost := by
    intro s hs
    obtain ⟨ts, hts, _, h9, _⟩ := hpair s hs
    obtain ⟨l, a1, _⟩ := walk_route h2 ts 0 (hwalk ts hts)
    rw [h9]
    exact (route_pos h32 hsc a1).1 hpos_len
  have hmer : ∀ s ∈ seqs, (if (vm.haveLm && decide (0 < p.lmWeight)) = true then
      Perplexity vm x (s.outputSymbols.map (partOf all (boundariesFrom o g))) (meritOf vm p s).perplexity
      else (meritOf vm p s).perplexity = 1) ∧
      ContextScore vm cfg.contextRules (s.outputSymbols.map (partOf all (boundariesFrom o g)))
        s.contextScore ∧
      (vm.haveLm = true ∧ 0 < p.lmWeight → s.perplexity = .fin (meritOf vm p s).perplexity) ∧
      0 < s.contextScore := by
    intro s hs
    obtain ⟨ts, hts, h8, h9, h10⟩ := hpair s hs
    exact sequence_merit hrun h32 h64 hlm hok hpos h10 (walk_fits h2 (hwalk ts hts) h8) (hidS s hs)
  let rs := seqs.map fun s => (s.outputSymbols.map (partOf all (boundariesFrom o g)), meritOf vm p s)
  have hcheap : CheapReadings (scoringOf vm x cfg p) o g p.maxSeq rs := by
    refine ⟨?_, ?_, ?_, ?_⟩
    · intro r hr
      obtain ⟨s, hs, rfl⟩ := List.mem_map.mp hr
      obtain ⟨ts, hts, h8, h9, h10⟩ := hpair s hs
      obtain ⟨m1, m2, _⟩ := hmer s hs
      refine ⟨m1, ?_, m2⟩
      obtain ⟨os, k1, k2⟩ := walk_reading h32 hg hall h2 ts 0 (hwalk ts hts)
      rw [h8] at k1
      cases k1
      have e : (meritOf vm p s).cost = (ts.map Tr.cost).sum := h9
      rw [e]
      show Reading (VariantsOf vm x cfg p) VariantResult.distScore
        (VariantResult.score x.f64 p.variant.freqWeight) p.maxNgram _ _ _ _
      simpa [flat, byteLen] using k2
    · have : rs.map Prod.fst = seqs.map fun s => s.outputSymbols.map (partOf all (boundariesFrom o g)) := by
        rw [List.map_map]; rfl
      rw [this]
      refine forall₂_nodup hf hnod ?_
      intro ts hts ts' hts' s s' hs hs' he
      exact walk_parts hg hall hplace h2 hlab (hwalk ts hts) (hwalk ts' hts') (sequenceOf_symbols hs).1
        (sequenceOf_symbols hs').1 he
    · rw [List.length_map, ← hf.length_eq]
      exact t4
    · intro l c hl hne
      obtain ⟨ts, os, w1, w2, w3, w4⟩ := reading_walk h32
        (fun t a b ha hb => by rw [VariantsOf, ha] at hb; exact Except.ok.inj hb) hn hall h2 h3 hl (a := [])
        rfl (by simp [flat, byteLen])
      have hout : ts ∉ tss := by
        intro hts
        obtain ⟨s, hs, h8⟩ := mem_of_forall₂_left hf hts
        refine hne ?_
        rw [List.map_map, List.mem_map]
        refine ⟨s, hs, ?_⟩
        have := (sequenceOf_symbols h8).1
        rw [w3] at this
        cases this
        exact w4
      obtain ⟨k1, k2⟩ := t6 hfwd ts ⟨_, List.mem_singleton.mpr rfl, w1⟩ hout
      rw [List.length_map, ← hf.length_eq]
      refine ⟨k1, ?_⟩
      intro r hr
      obtain ⟨s, hs, rfl⟩ := List.mem_map.mp hr
      obtain ⟨ts', hts', _, h9, _⟩ := hpair s hs
      have := k2 ts' hts'
      rw [w2] at this
      exact h9.trans_le this
  have hshow : ∀ s ∈ seqs, resultMatches all s.tags 0 s.outputSymbols = .ok ms →
      List.Forall₂ (ShowsPart vm x cfg p) (s.outputSymbols.map (partOf all (boundariesFrom o g))) ms := by
    intro s hs hres
    obtain ⟨ts, hts, h8, _⟩ := hpair s hs
    exact results_show hres (walk_shows hg hall h2 (hwalk ts hts) h8)
  obtain ⟨s, l, hseqs⟩ := List.exists_cons_of_ne_nil h5
  have hs : s ∈ seqs := by rw [hseqs]; simp
  by_cases hlen : g.length = 1
  · have hbot := single_word_bottom (vm := vm) (cfg := cfg) h32 h64 hwl hwv hwc hlen hcost
    rw [hseqs] at hbot
    rw [hseqs, selectBest_bottom _ s l hbot] at h6
    cases h6
    refine ⟨_, ⟨rs, _, hcheap, List.mem_map.mpr ⟨s, hs, rfl⟩, fun _ r hr => ?_, fun h => absurd hlen h⟩,
      hshow s hs h7⟩
    obtain ⟨s', hs', rfl⟩ := List.mem_map.mp hr
    obtain ⟨ts', hts', e'⟩ := mem_of_forall₂_right hf hs'
    obtain ⟨ts, hts, e⟩ := head_of_forall₂ hf (b := s) (by rw [hseqs]; rfl)
    show s.variantCost ≤ s'.variantCost
    rw [(sequenceOf_symbols e).2, (sequenceOf_symbols e').2]
    exact t5 (by show g.length + 1 = 2; omega) ts hts ts' hts'
  · obtain ⟨b, b1, b2, b3, b4⟩ := selectBest_max (vm.combinedScore x cfg p (bestPerplexity seqs)
      (bestCost x.f32 g.length seqs) (bestContext seqs)) s l
    rw [← hseqs] at b1 b2 b4
    rw [b1] at h6
    cases h6
    refine ⟨_, ⟨rs, _, hcheap, List.mem_map.mpr ⟨b, b2, rfl⟩, fun h => absurd h hlen, fun _ => ?_⟩, hshow b b2 h7⟩
    obtain ⟨best, c1, c2, c3, hform⟩ := sequence_overall (cfg := cfg) h32 h64 hln1
      (show 2 ≤ g.length by omega) (by positivity) seqs h5 (fun hc s hs => (hmer s hs).2.2.1 hc) hcost
      (fun s hs => (hmer s hs).2.2.2)
    refine ⟨best, ⟨?_, ?_, ?_⟩, fun h => ?_⟩
    · show if (vm.haveLm && decide (0 < p.lmWeight)) = true then _ else _
      convert c1 using 2
      ext y
      simp only [Set.mem_ofPred_eq]
      constructor
      · rintro (h | ⟨r, hr, h⟩)
        · exact .inl h
        · obtain ⟨s, hs, rfl⟩ := List.mem_map.mp hr
          exact .inr ⟨s, hs, h⟩
      · rintro (h | ⟨s, hs, h⟩)
        · exact .inl h
        · exact .inr ⟨_, List.mem_map.mpr ⟨s, hs, rfl⟩, h⟩
    · convert c2 using 1
      ext y
      simp only [Set.mem_ofPred_eq]
      constructor
      · rintro (h | ⟨r, hr, h⟩)
        · exact .inl h
        · obtain ⟨s, hs, rfl⟩ := List.mem_map.mp hr
          exact .inr ⟨s, hs, h⟩
      · rintro (h | ⟨s, hs, h⟩)
        · exact .inl h
        · exact .inr ⟨_, List.mem_map.mpr ⟨s, hs, rfl⟩, h⟩
    · convert c3 using 1
      ext y
      simp only [Set.mem_ofPred_eq]
      constructor
      · rintro ⟨r, hr, h⟩
        obtain ⟨s, hs, rfl⟩ := List.mem_map.mp hr
        exact ⟨s, hs, h⟩
      · rintro ⟨s, hs, h⟩
        exact ⟨_, List.mem_map.mpr ⟨s, hs, rfl⟩, h⟩
    · rw [← hform b b2] at h
      obtain ⟨_, k2⟩ := b4 fun h0 => h (by rw [b3 h0, h0])
      intro r hr
      obtain ⟨s, hs, rfl⟩ := List.mem_map.mp hr
      have hgt := k2 s hs
      rwa [hform s hs, hform b b2] at hgt

/-! ## Texts -/

/-- **C107**: a search in text reads each batch of words as the best of its `maxSeq` cheapest readings: the one
with the highest mean of the logarithms of perplexity, cost and context score, compared to the best values
among them.  The matches show the stretches of the reading, with the variants of their text, and have the tags
that the rules give to the chosen entries.  (Exact arithmetic; the solver returns the cheapest paths; a
language model with discounted frequencies.) -/
theorem search_reads {alphabet : Alphabet} {ops : List Op} {vm : Vm} {x : TextExt}
    {cfg : TextConfig} {p : TextParams} (hrun : (Vm.new alphabet).run ops = .ok vm)
    (h32 : x.f32 = Rounding.exact) (h64 : x.f64 = Rounding.exact)
    (hln1 : x.ln64 1 = 0)
    (hlm : vm.haveLm = true → 0 < p.lmWeight → Counts vm ∧
      ∀ v ∈ vm.decoder, ∀ ws, TokensOf v.text ws → ws.length ≤ 255)
    (hok : ∀ r ∈ cfg.contextRules, RuleOk r) (hpos : ∀ r ∈ cfg.contextRules, 0 < r.score)
    (hwl : 0 ≤ p.lmWeight) (hwv : 0 < p.variantmodelWeight) (hwc : 0 ≤ p.contextrulesWeight)
    (hsolve : SolverBest x.solve) (hsp : x.isAlpha ' ' = false)
    (hwt : WeightsOk x.f64 cfg.weights) (hconf : MildConfusables x.f64 cfg.confusables)
    (hlinks : ∀ v ∈ vm.decoder, ∀ t s, VariantReference.variantOf t s ∈ v.variants.getD [] →
      0 ≤ s ∧ s ≤ 1) (hfw : 0 ≤ p.variant.freqWeight) (hn : 1 ≤ p.maxNgram)
    (hmode : 1 < p.maxNgram ∨ vm.haveLm = true ∨ cfg.contextRules ≠ [])
    (hu : p.unicodeoffsets = false) (hi : vm.index.isEmpty = false)
    {text : List Char} {segs : List Seg} {ms : List Match} (hs : Segmented x.isAlpha text segs)
    (h : vm.findAllMatches x cfg p text = .ok ms) :
    ∃ ls mss, List.Forall₂ (fun b l => ChosenReading (scoringOf vm x cfg p) p.maxSeq b.1 b.2 l) (placed 0 (batches [] segs)) ls ∧
      List.Forall₂ (fun l out => List.Forall₂ (ShowsPart vm x cfg p) l out ∧
        Tagged vm cfg.contextRules out) ls mss ∧
      ms = mss.flatten := by
  have hbatch : ∀ (gs : List (List Seg)) (pre post : List Char) (out : List Match),
      (∀ g ∈ gs, IsBatch x.isAlpha g) →
      Vm.batchesRun vm x cfg p (pre ++ flat gs.flatten ++ post) (byteLen pre) gs = .ok out →
      ∃ ls mss, List.Forall₂ (fun b l => ChosenReading (scoringOf vm x cfg p) p.maxSeq b.1 b.2 l) (placed (byteLen pre) gs) ls ∧
        List.Forall₂ (fun l out => List.Forall₂ (ShowsPart vm x cfg p) l out ∧
          Tagged vm cfg.contextRules out) ls mss ∧
        out = mss.flatten := by
    intro gs
    induction gs with
    | nil =>
      intro pre post out _ hout
      cases hout
      exact ⟨[], [], .nil, .nil, rfl⟩
    | cons g gs ih =>
      intro pre post out hg hout
      rw [List.flatten_cons, flat_append, Vm.batchesRun] at hout
      obtain ⟨a, h1, hout⟩ := bind_ok.mp hout
      obtain ⟨b, h2, hout⟩ := bind_ok.mp hout
      have := pure_ok.mp hout
      subst this
      have e1 : pre ++ (flat g ++ flat gs.flatten) ++ post =
          pre ++ flat g ++ (flat gs.flatten ++ post) := by simp
      have e2 : pre ++ (flat g ++ flat gs.flatten) ++ post =
          (pre ++ flat g) ++ flat gs.flatten ++ post := by simp
      rw [e1] at h1
      rw [e2, ← byteLen_append] at h2
      have hgb := hg g (by simp)
      obtain ⟨l, c1, c2⟩ := batch_reads hrun h32 h64 hln1 hlm hok hpos hwl hwv hwc hsolve hsp hwt hconf
        hlinks hfw hn hmode hgb h1
      have c3 := batchMatches_tagged hsp hsolve.exact.ok hok hgb h1
      obtain ⟨ls, mss, c4, c5, c6⟩ := ih _ _ _ (fun g' h' => hg g' (by simp [h'])) h2
      rw [byteLen_append] at c4
      exact ⟨l :: ls, a :: mss, .cons c1 c4, .cons ⟨c2, c3⟩ c5, by rw [c6, List.flatten_cons]⟩
  by_cases hne : text = []
  · subst hne
    have hms : ms = [] := by
      rw [Vm.findAllMatches, if_pos rfl] at h
      exact (Except.ok.inj h).symm
    obtain ⟨hb, hf⟩ := batches_of hs
    have hb0 : batches [] segs = [] := by
      rcases hf with hf | hf
      · cases hbs : batches [] segs with
        | nil => rfl
        | cons g gs =>
          have hg := hb g (by simp [hbs])
          have ht := hs.text_eq
          rw [← hf, hbs, List.flatten_cons, flat_append, List.append_eq_nil_iff] at ht
          have := stretch_prefix_flat g
          rw [ht.1, List.prefix_nil] at this
          exact absurd this hg.word
      · exact hf.1
    rw [hms, hb0]
    exact ⟨[], [], .nil, .nil, rfl⟩
  rw [findAllMatches_eq vm x cfg p hne hi hs, hu] at h
  obtain ⟨ms', h1, h2⟩ := bind_ok.mp h
  have := pure_ok.mp h2
  subst this
  obtain ⟨hb, hf⟩ := batches_of hs
  rcases hf with hf | ⟨e1, s, e⟩
  · have := hbatch (batches [] segs) [] [] ms' hb
    simp only [List.nil_append, List.append_nil, hf, hs.text_eq] at this
    exact this h1
  · rw [e1] at h1 ⊢
    cases h1
    exact ⟨[], [], .nil, .nil, rfl⟩

/-! ## The reference solver -/

theorem walks_nodup {trs : List Tr} (h : trs.Nodup) : ∀ n q, ((walks trs n q).map Prod.fst).Nodup := by
  intro n
  induction n with
  | zero => intro q; simp [walks]
  | succ n ih =>
    intro q
    rw [walks, List.map_cons, List.nodup_cons, List.map_flatMap]
    constructor
    · intro hm
      obtain ⟨t, _, hm⟩ := List.mem_flatMap.mp hm
      simp at hm
    · rw [List.nodup_flatMap]
      constructor
      · intro t _
        rw [List.map_map]
        have : (Prod.fst ∘ fun w : List Tr × Nat => (t :: w.1, w.2)) = (List.cons t) ∘ Prod.fst := rfl
        rw [this, ← List.map_map]
        exact (ih t.dst).map (List.cons_injective)
      · refine (h.filter _).imp ?_
        intro a b hab l ha hb
        simp only [List.map_map] at ha hb
        obtain ⟨w, _, e⟩ := List.mem_map.mp ha
        obtain ⟨w', _, e'⟩ := List.mem_map.mp hb
        rw [← e'] at e
        simp only [Function.comp, List.cons.injEq] at e
        exact hab e.1

/-- The reference solver returns the cheapest paths. -/
theorem refSolver_best : SolverBest refSolver := by
  intro f n
  let le : List Tr → List Tr → Prop := fun a b => (a.map Tr.cost).sum ≤ (b.map Tr.cost).sum
  have : Std.Total le := ⟨fun a b => le_total _ _⟩
  have : IsTrans (List Tr) le := ⟨fun a b c h h' => le_trans h h'⟩
  let ws := ((walks f.trs (f.finals.foldr max 0) 0).filter fun w => f.finals.contains w.2).map Prod.fst
  have hsorted : (ws.insertionSort le).Pairwise le := List.pairwise_insertionSort _ _
  refine ⟨(ws.insertionSort le).take n, ?_, ?_, ?_, ?_, ?_, ?_⟩
  · unfold refSolver
    rw [List.map_take, List.map_insertionSort (r := le) (s := fun a b : FstPath => a.weight ≤ b.weight)]
    · rw [List.map_map]; rfl
    · intro a _ b _
      exact Iff.rfl
  · intro ts hts
    have hts := List.mem_of_mem_take hts
    rw [List.mem_insertionSort, List.mem_map] at hts
    obtain ⟨w, h1, rfl⟩ := hts
    rw [List.mem_filter, List.contains_iff_mem] at h1
    exact ⟨w.2, h1.2, walk_of_walks h1.1⟩
  · intro hn
    refine List.Nodup.sublist (List.take_sublist _ _) ?_
    rw [(List.perm_insertionSort le ws).nodup_iff]
    exact (walks_nodup hn _ _).sublist (List.filter_sublist.map _)
  · exact List.length_take_le _ _
  · intro _ ts hts ts' hts'
    have := hsorted.sublist (List.take_sublist n _)
    cases hl : (ws.insertionSort le).take n with
    | nil =>
      rw [hl] at hts
      cases hts
    | cons a l =>
      rw [hl] at hts hts' this
      cases hts
      rcases List.mem_cons.mp hts' with rfl | h
      · exact le_refl _
      · exact (List.pairwise_cons.mp this).1 ts' h
  · intro hf ts ⟨q, hq, hw⟩ hno
    obtain ⟨h1, _⟩ := walks_of_walk hf (n := f.finals.foldr max 0) hw
      (by have := le_foldr_max hq; omega)
    have hm : ts ∈ ws.insertionSort le := by
      rw [List.mem_insertionSort, List.mem_map]
      exact ⟨(ts, q), List.mem_filter.mpr ⟨h1, by simpa using hq⟩, rfl⟩
    have hd : ts ∈ (ws.insertionSort le).drop n := by
      rw [← List.take_append_drop n (ws.insertionSort le), List.mem_append] at hm
      exact hm.resolve_left hno
    constructor
    · rw [List.length_take]
      have := List.length_pos_of_mem hd
      rw [List.length_drop] at this
      omega
    · intro ts' hts'
      rw [← List.take_append_drop n (ws.insertionSort le), List.pairwise_append] at hsorted
      exact hsorted.2.2 ts' hts' ts hd

/-! ## Examples -/

theorem pair_discounted : Discounted (pairVm 2) := by
  have h : (pairVm 2).ngrams = [(.uni 3, 4), (.uni 4, 1), (.uni 5, 3), (.bi 5 4, 2)] := by decide +kernel
  intro a b c hc
  have h1 := mem_of_get? (show HMap.get? (pairVm 2).ngrams (.bi a b) = some c from hc)
  rw [h] at h1
  simp only [List.mem_cons, Prod.mk.injEq, reduceCtorEq, NGram.bi.injEq, false_and, false_or,
    List.not_mem_nil, or_false] at h1
  obtain ⟨⟨rfl, rfl⟩, rfl⟩ := h1
  exact ⟨by decide, 3, by decide +kernel, by decide⟩

theorem pair_counts : Counts (pairVm 2) := by
  have h : ∀ e ∈ (pairVm 2).ngrams, 0 < e.2 := by decide +kernel
  intro l c hc
  obtain ⟨g, _, h1⟩ := Option.bind_eq_some_iff.mp hc
  exact h _ (mem_of_get? h1)

/-- A rule that tags `b`. -/
def exTagB : ContextRule := { pattern := [.vocab 4], score := 2, tag := [7], tagoffset := [(0, 1)] }

theorem exTagB_ok : RuleOk exTagB := by
  refine ⟨?_, by decide, by decide⟩
  intro p hp
  simp only [exTagB, List.mem_singleton] at hp
  subst hp
  simp [Small]

def exReadConfig : TextConfig := { exTextConfig with contextRules := [exTagB] }

def exReadParams : TextParams := { exTextParams with lmWeight := 1000 }

theorem exRead_segs : Segmented exText.isAlpha "aa b, b".toList
    [("aa".toList, " ".toList), ("b".toList, ", ".toList), ("b".toList, [])] :=
  ⟨by decide, rfl, by decide +kernel, by decide +kernel, by decide +kernel, by decide +kernel⟩

/-- `aa b, b`, with a language model and a rule: `aa` is read as `ab`, which is often followed by `b`, although
`a` is closer; each `b` is tagged. -/
example : ∃ ls mss, List.Forall₂ (fun b l => ChosenReading
      (scoringOf (pairVm 2) exText exReadConfig exReadParams) exReadParams.maxSeq b.1 b.2 l)
      [(0, [("aa".toList, " ".toList), ("b".toList, ", ".toList)]), (6, [("b".toList, [])])] ls ∧
    List.Forall₂ (fun l out => List.Forall₂ (ShowsPart (pairVm 2) exText exReadConfig exReadParams) l out ∧
      Tagged (pairVm 2) [exTagB] out) ls mss ∧
    mss.flatten.map (fun m => (m.text, m.first, m.tag, (chosenEntry (pairVm 2) m).1)) =
      [("aa".toList, 0, [], 5), ("b".toList, 3, [7], 4),
       ("b".toList, 6, [7], 4)] := by
  have hrun : (Vm.new exAlphabet).run (pairOps 2) = .ok (pairVm 2) := rfl
  have hex : ∃ ms, (pairVm 2).findAllMatches exText exReadConfig exReadParams "aa b, b".toList = .ok ms ∧
      ms.map (fun m => (m.text, m.first, m.tag, (chosenEntry (pairVm 2) m).1)) =
      [("aa".toList, 0, [], 5), ("b".toList, 3, [7], 4),
       ("b".toList, 6, [7], 4)] := by
    have h : ((pairVm 2).findAllMatches exText exReadConfig exReadParams "aa b, b".toList).toOption.map
        (·.map fun m => (m.text, m.first, m.tag, (chosenEntry (pairVm 2) m).1)) = some
      [("aa".toList, 0, [], 5), ("b".toList, 3, [7], 4),
       ("b".toList, 6, [7], 4)] := by decide +kernel
    obtain ⟨ms, h1, h2⟩ := Option.map_eq_some_iff.mp h
    refine ⟨ms, ?_, h2⟩
    generalize (pairVm 2).findAllMatches exText exReadConfig exReadParams "aa b, b".toList = r at h1
    cases r with
    | error e => cases h1
    | ok y => cases h1; rfl
  obtain ⟨ms, h1, h2⟩ := hex
  have := search_reads hrun rfl rfl (by decide +kernel)
    (fun _ _ => ⟨pair_counts, fun v hv ws hws => by
      have := tokensOf_unique hws
      subst this
      have hall : ∀ v ∈ (pairVm 2).decoder, (splitSpaces v.text).length ≤ 255 := by decide +kernel
      exact hall v hv⟩)
    (fun r hr => by
      have hr : r ∈ [exTagB] := hr
      rw [List.mem_singleton] at hr; subst hr; exact exTagB_ok)
    (fun r hr => by
      have hr : r ∈ [exTagB] := hr
      rw [List.mem_singleton] at hr; subst hr; decide +kernel)
    (by decide +kernel) (by decide +kernel) (by decide +kernel) refSolver_best (by decide +kernel) exWeights_ok
    (mild_nil _)
    (by
      have : ∀ v ∈ (pairVm 2).decoder, v.variants.getD [] = [] := by decide +kernel
      intro v hv t s h
      rw [this v hv] at h
      cases h) (by decide +kernel) (by decide) (.inl (by decide)) rfl
    (by decide +kernel) exRead_segs h1
  obtain ⟨ls, mss, c1, c2, c3⟩ := this
  refine ⟨ls, mss, ?_, c2, by rw [← c3]; exact h2⟩
  have e : placed 0 (batches [] [("aa".toList, " ".toList), ("b".toList, ", ".toList), ("b".toList, [])]) =
      [(0, [("aa".toList, " ".toList), ("b".toList, ", ".toList)]), (6, [("b".toList, [])])] := by
    decide +kernel
  rw [e] at c1
  exact c1

/-- Without language model and rule `aa` is read as `a`. -/
example : ((pairVm 2).findAllMatches exText exTextConfig { exReadParams with lmWeight := 0 }
    "aa b, b".toList).toOption.map (·.map fun m => (chosenEntry (pairVm 2) m).1) = some [3, 4, 4] := by
  decide +kernel

end Verif.Props
