import Verif.Spec.Reading
import Verif.Props.Total
import Mathlib.Order.Bounds.Basic

/-!
# How the reading of a batch is chosen (C77)
-/
namespace Verif.Props

open Verif.Spec Verif.Model Verif.Lemmas

/-! ## The best values -/

theorem foldl_least {α : Type} (f : α → Rat) (l : List α) (b : Rat) :
    IsLeast {y | y = b ∨ ∃ s ∈ l, y = f s}
      (l.foldl (fun best s => if f s < best then f s else best) b) := by
  induction l generalizing b with
  | nil => exact ⟨.inl rfl, by rintro y (rfl | ⟨s, hs, _⟩); exacts [le_refl _, by cases hs]⟩
  | cons a l ih =>
    rw [List.foldl_cons]
    obtain ⟨h1, h2⟩ := ih (if f a < b then f a else b)
    have hb : (if f a < b then f a else b) = min (f a) b := by
      split
      · next h => exact (min_eq_left h.le).symm
      · next h => exact (min_eq_right (not_lt.mp h)).symm
    refine ⟨?_, ?_⟩
    · rcases h1 with h1 | ⟨s, hs, h1⟩
      · split at h1
        · exact .inr ⟨a, by simp, by rw [← h1]; simp [*]⟩
        · exact .inl (by rw [← h1]; simp [*])
      · exact .inr ⟨s, by simp [hs], h1⟩
    · have hle := h2 (.inl rfl)
      rw [hb] at hle
      rintro y (rfl | ⟨s, hs, rfl⟩)
      · rw [hb]; exact le_trans hle (min_le_right _ _)
      · rcases List.mem_cons.mp hs with rfl | hs
        · rw [hb]; exact le_trans hle (min_le_left _ _)
        · exact h2 (.inr ⟨s, hs, rfl⟩)

/-- The lowest cost, or twice the number of words minus two if that is lower. -/
theorem bestCost_least (r : Rounding) (k : Nat) (l : List Seqn) :
    IsLeast {y | y = r.rnd (r.rnd (k - 1 : Nat) * 2) ∨ ∃ s ∈ l, y = s.variantCost}
      (bestCost r k l) :=
  foldl_least Seqn.variantCost l _

/-- The highest context score, or 0. -/
theorem bestContext_greatest (l : List Seqn) :
    IsGreatest {y | y = 0 ∨ ∃ s ∈ l, y = s.contextScore} (bestContext l) := by
  have h := foldl_least (fun s : Seqn => -s.contextScore) l 0
  have e : ∀ (l : List Seqn) (b : Rat), l.foldl (fun best (s : Seqn) =>
      if -s.contextScore < best then -s.contextScore else best) (-b) =
      -(l.foldl (fun best s => if s.contextScore > best then s.contextScore else best) b) := by
    intro l
    induction l with
    | nil => intro b; rfl
    | cons a l ih =>
      intro b
      rw [List.foldl_cons, List.foldl_cons, ← ih]
      congr 1
      simp only [neg_lt_neg_iff, gt_iff_lt]
      split <;> rfl
  rw [← neg_zero, e] at h
  obtain ⟨h1, h2⟩ := h
  refine ⟨?_, ?_⟩
  · rcases h1 with h1 | ⟨s, hs, h1⟩
    · exact .inl (neg_injective h1)
    · exact .inr ⟨s, hs, neg_injective h1⟩
  · rintro y (rfl | ⟨s, hs, rfl⟩)
    · exact neg_le_neg_iff.mp (h2 (.inl rfl))
    · exact neg_le_neg_iff.mp (h2 (.inr ⟨s, hs, rfl⟩))

/-- The lowest perplexity, or 999999 if that is lower. -/
theorem bestPerplexity_least (pp : Seqn → Rat) (l : List Seqn) (h : ∀ s ∈ l, s.perplexity = .fin (pp s)) :
    ∃ b, bestPerplexity l = .fin b ∧ IsLeast {y | y = 999999 ∨ ∃ s ∈ l, y = pp s} b := by
  refine ⟨_, ?_, foldl_least pp l 999999⟩
  unfold bestPerplexity
  generalize (999999 : Rat) = b
  induction l generalizing b with
  | nil => rfl
  | cons a l ih =>
    rw [List.foldl_cons, List.foldl_cons, h a (by simp)]
    have : (if (EFloat.fin b).gt (.fin (pp a)) = true then EFloat.fin (pp a) else .fin b) =
        .fin (if pp a < b then pp a else b) := by
      simp only [EFloat.gt, gt_iff_lt, decide_eq_true_eq]
      split <;> rfl
    rw [this]
    exact ih (fun s hs => h s (by simp [hs])) _

/-! ## The score -/

/-- The merit of a sequence; without language model the perplexity is the same for all. -/
def meritOf (vm : Vm) (p : TextParams) (s : Seqn) : Merit :=
  { perplexity := if vm.haveLm ∧ p.lmWeight > 0 then
      match s.perplexity with
      | .fin a => a
      | _ => 0
    else 1, cost := s.variantCost, context := s.contextScore }

/-- Perplexity, cost and context score are positive numbers. -/
def Regular (vm : Vm) (p : TextParams) (s : Seqn) : Prop :=
  (vm.haveLm ∧ p.lmWeight > 0 → ∃ a, s.perplexity = .fin a ∧ 0 < a) ∧ 0 < s.variantCost ∧
    0 < s.contextScore

/-- **C77**: with exact arithmetic and sequences whose values are positive, the score of a sequence is
the weighted mean of the logarithms of how it compares to the lowest perplexity, the lowest cost and the
highest context score. -/
theorem sequence_score {vm : Vm} {x : TextExt} {cfg : TextConfig} {p : TextParams} {k : Nat}
    (h32 : x.f32 = Rounding.exact) (h64 : x.f64 = Rounding.exact) (hln : x.ln64 1 = 0) (hk : 2 ≤ k)
    (hw : p.lmWeight + p.variantmodelWeight + p.contextrulesWeight ≠ 0)
    (seqs : List Seqn) (hne : seqs ≠ []) (hreg : ∀ s ∈ seqs, Regular vm p s) :
    ∃ best : Merit,
      (if vm.haveLm ∧ p.lmWeight > 0 then
        IsLeast {y | y = 999999 ∨ ∃ s ∈ seqs, s.perplexity = .fin y} best.perplexity
        else best.perplexity = 1) ∧
      IsLeast {y | y = ((k - 1 : Nat) : Rat) * 2 ∨ ∃ s ∈ seqs, y = s.variantCost} best.cost ∧
      IsGreatest {y | ∃ s ∈ seqs, y = s.contextScore} best.context ∧
      0 < best.perplexity ∧ 0 < best.cost ∧ 0 < best.context ∧
      ∀ s ∈ seqs, vm.combinedScore x cfg p (bestPerplexity seqs) (bestCost x.f32 k seqs)
        (bestContext seqs) s = .fin (mixed x.ln64 (mixOf vm cfg p) best (meritOf vm p s)) := by
  have c1 := bestCost_least x.f32 k seqs
  rw [h32] at c1
  simp only [Rounding.exact, id] at c1
  have cpos : 0 < bestCost x.f32 k seqs := by
    rw [h32]
    rcases c1.1 with h | ⟨s, hs, h⟩
    · have h1 : (1 : Rat) ≤ ((k - 1 : Nat) : Rat) := by exact_mod_cast (show 1 ≤ k - 1 by omega)
      have h2 : (0 : Rat) < ((k - 1 : Nat) : Rat) * 2 := by linarith
      exact lt_of_lt_of_eq h2 h.symm
    · exact lt_of_lt_of_eq (hreg s hs).2.1 h.symm
  have g1 := bestContext_greatest seqs
  obtain ⟨s0, hs0⟩ := List.exists_mem_of_ne_nil _ hne
  have gpos : 0 < bestContext seqs :=
    lt_of_lt_of_le (hreg s0 hs0).2.2 (g1.2 (.inr ⟨s0, hs0, rfl⟩))
  have g2 : IsGreatest {y | ∃ s ∈ seqs, y = s.contextScore} (bestContext seqs) := by
    refine ⟨?_, fun y hy => g1.2 (.inr hy)⟩
    rcases g1.1 with h | h
    · exact absurd h gpos.ne'
    · exact h
  by_cases hlm : vm.haveLm ∧ p.lmWeight > 0
  · have hpp : ∀ s ∈ seqs, s.perplexity = .fin (meritOf vm p s).perplexity := by
      intro s hs
      obtain ⟨a, ha, _⟩ := (hreg s hs).1 hlm
      unfold meritOf
      rw [if_pos hlm, ha]
    obtain ⟨b, b1, b2⟩ := bestPerplexity_least (fun s => (meritOf vm p s).perplexity) seqs hpp
    have bpos : 0 < b := by
      rcases b2.1 with rfl | ⟨s, hs, rfl⟩
      · norm_num
      · obtain ⟨a, ha, hpos⟩ := (hreg s hs).1 hlm
        rw [hpp s hs] at ha
        cases ha
        exact hpos
    have b3 : IsLeast {y | y = 999999 ∨ ∃ s ∈ seqs, s.perplexity = .fin y} b := by
      have : {y : Rat | y = 999999 ∨ ∃ s ∈ seqs, s.perplexity = .fin y} =
          {y | y = 999999 ∨ ∃ s ∈ seqs, y = (meritOf vm p s).perplexity} := by
        ext y
        simp only [Set.mem_ofPred_eq]
        constructor
        · rintro (h | ⟨s, hs, h⟩)
          · exact .inl h
          · rw [hpp s hs] at h
            cases h
            exact .inr ⟨s, hs, rfl⟩
        · rintro (h | ⟨s, hs, h⟩)
          · exact .inl h
          · exact .inr ⟨s, hs, by rw [hpp s hs, h]⟩
      rw [this]; exact b2
    refine ⟨⟨b, bestCost x.f32 k seqs, bestContext seqs⟩, ?_, ?_, g2, bpos, cpos, gpos, ?_⟩
    · rw [if_pos hlm]; exact b3
    · rw [h32]; exact c1
    intro s hs
    obtain ⟨r1, r2, r3⟩ := hreg s hs
    obtain ⟨a, ha, hpos⟩ := r1 hlm
    have hm : (meritOf vm p s).perplexity = a := by
      have := hpp s hs
      rw [ha] at this
      cases this
      rfl
    have hmix : mixOf vm cfg p = ⟨p.lmWeight, p.variantmodelWeight, p.contextrulesWeight⟩ := by
      unfold mixOf
      rw [if_neg]
      rintro ⟨h | h, _⟩
      · rw [hlm.1] at h; cases h
      · exact absurd h hlm.2.ne'
    have hcond : ¬ (((!vm.haveLm) = true ∨ p.lmWeight = 0) ∧
        (cfg.contextRules.isEmpty = true ∨ p.contextrulesWeight = 0)) := by
      rintro ⟨h | h, _⟩
      · rw [hlm.1] at h; cases h
      · exact absurd h hlm.2.ne'
    have d1 := div_pos bpos hpos
    have d2 := div_pos cpos r2
    have d3 := div_pos r3 gpos
    unfold Vm.combinedScore
    simp only
    rw [if_neg hcond, if_pos hlm, b1, ha, h64]
    simp only [EFloat.div, Rounding.exact, id, hpos.ne', r2.ne', gpos.ne', if_false, EFloat.log,
      gt_iff_lt, d1, d2, d3, if_true, EFloat.scale, EFloat.add, hw]
    rw [hmix]
    unfold mixed
    rw [hm]
    rfl
  · refine ⟨⟨1, bestCost x.f32 k seqs, bestContext seqs⟩, ?_, ?_, g2, one_pos, cpos, gpos, ?_⟩
    · rw [if_neg hlm]
    · rw [h32]; exact c1
    intro s hs
    obtain ⟨_, r2, r3⟩ := hreg s hs
    have hm : (meritOf vm p s).perplexity = 1 := by
      unfold meritOf
      rw [if_neg hlm]
    have d2 := div_pos cpos r2
    have d3 := div_pos r3 gpos
    unfold Vm.combinedScore mixOf
    simp only
    rw [if_neg hlm, h64]
    by_cases hc : (vm.haveLm = false ∨ p.lmWeight = 0) ∧
        (cfg.contextRules = [] ∨ p.contextrulesWeight = 0)
    · rw [if_pos hc, if_pos (by simpa using hc)]
      simp only [EFloat.div, Rounding.exact, id, r2.ne', if_false, EFloat.log,
        gt_iff_lt, d2, if_true, mixed, meritOf]
      congr 1
      ring
    · rw [if_neg hc, if_neg (by simpa using hc)]
      simp only [EFloat.div, Rounding.exact, id, r2.ne', gpos.ne', if_false, EFloat.log,
        gt_iff_lt, d2, d3, if_true, EFloat.scale, EFloat.add, hw]
      unfold mixed
      rw [hm, div_one, hln]
      rfl

/-- If `a` is no worse than `b` and better in some respect, its score is higher. -/
theorem mixed_lt {ln : Rat → Rat} (hln : ∀ a b, 0 < a → a < b → ln a < ln b) {w : Mix}
    (h1 : 0 ≤ w.lm) (h2 : 0 ≤ w.variant) (h3 : 0 ≤ w.context) {best a b : Merit}
    (hp : 0 < best.perplexity ∧ 0 < a.perplexity ∧ 0 < b.perplexity)
    (hc : 0 < best.cost ∧ 0 < a.cost ∧ 0 < b.cost)
    (hx : 0 < best.context ∧ 0 < a.context ∧ 0 < b.context) (hno : NoWorse w a b)
    (hb : Better w a b) : mixed ln w best b < mixed ln w best a := by
  have mono : ∀ {u v : Rat}, 0 < u → u ≤ v → ln u ≤ ln v := by
    intro u v hu huv
    rcases huv.lt_or_eq with h | h
    · exact (hln u v hu h).le
    · rw [h]
  have term : ∀ {w u v : Rat}, 0 ≤ w → 0 < u → (0 < w → u ≤ v) → w * ln u ≤ w * ln v := by
    intro w u v hw hu h
    rcases hw.lt_or_eq with hw' | rfl
    · exact mul_le_mul_of_nonneg_left (mono hu (h hw')) hw
    · simp
  have strict : ∀ {w u v : Rat}, 0 < u → 0 < w ∧ u < v → w * ln u < w * ln v :=
    fun hu h => mul_lt_mul_of_pos_left (hln _ _ hu h.2) h.1
  obtain ⟨n1, n2, n3⟩ := hno
  have t1 := term (w := w.lm) (u := best.perplexity / b.perplexity) (v := best.perplexity / a.perplexity)
    h1 (div_pos hp.1 hp.2.2) fun h => div_le_div_of_nonneg_left hp.1.le hp.2.1 (n1 h)
  have t2 := term (w := w.variant) (u := best.cost / b.cost) (v := best.cost / a.cost)
    h2 (div_pos hc.1 hc.2.2) fun h => div_le_div_of_nonneg_left hc.1.le hc.2.1 (n2 h)
  have t3 := term (w := w.context) (u := b.context / best.context) (v := a.context / best.context)
    h3 (div_pos hx.2.2 hx.1) fun h => div_le_div_of_nonneg_right (n3 h) hx.1.le
  have hsum : 0 < w.lm + w.variant + w.context := by
    rcases hb with h | h | h <;> linarith [h.1]
  unfold mixed
  refine div_lt_div_of_pos_right ?_ hsum
  rcases hb with h | h | h
  · have := strict (u := best.perplexity / b.perplexity) (v := best.perplexity / a.perplexity)
      (div_pos hp.1 hp.2.2) ⟨h.1, div_lt_div_of_pos_left hp.1 hp.2.1 h.2⟩
    linarith
  · have := strict (u := best.cost / b.cost) (v := best.cost / a.cost)
      (div_pos hc.1 hc.2.2) ⟨h.1, div_lt_div_of_pos_left hc.1 hc.2.1 h.2⟩
    linarith
  · have := strict (u := b.context / best.context) (v := a.context / best.context)
      (div_pos hx.2.2 hx.1) ⟨h.1, div_lt_div_of_pos_right h.2 hx.1⟩
    linarith

/-! ## Sequences are regular -/

/-- Every counted pair is rarer than its first token. -/
def Discounted (vm : Vm) : Prop :=
  ∀ a b c, (NGram.fromList [a, b]).bind vm.ngrams.get? = some c →
    0 < c ∧ ∃ n, (NGram.fromList [a]).bind vm.ngrams.get? = some n ∧ c < n

theorem transition_neg {vm : Vm} {x : TextExt} (h32 : x.f32 = Rounding.exact)
    (hln : ∀ a, 0 < a → a < 1 → x.ln32 a < 0) (hd : Discounted vm) (a b : Option Nat) :
    ∃ t, transition (fun l => (NGram.fromList l).bind vm.ngrams.get?) x a b = .fin t ∧ t < 0 := by
  have hsm : ∃ t, EFloat.fin (x.f32.rnd SMOOTHING) = .fin t ∧ t < 0 :=
    ⟨SMOOTHING, by rw [h32]; rfl, by norm_num [SMOOTHING]⟩
  unfold transition
  split
  · next a b =>
    dsimp only
    cases hc : (NGram.fromList [a, b]).bind vm.ngrams.get? with
    | none => exact hsm
    | some c =>
      obtain ⟨h1, n, h2, h3⟩ := hd a b c hc
      simp only [h2, Option.getD_some]
      rw [if_pos h3.le, h32]
      have hn : (0 : Rat) < n := by exact_mod_cast Nat.lt_of_le_of_lt (Nat.zero_le _) h3
      have hc : (0 : Rat) < c := by exact_mod_cast h1
      have hlt : (c : Rat) < n := by exact_mod_cast h3
      have hq : (0 : Rat) < c / n := div_pos hc hn
      simp only [EFloat.div, Rounding.exact, id, hn.ne', if_false, EFloat.log, gt_iff_lt, hq, if_true]
      exact ⟨_, rfl, hln _ hq ((div_lt_one hn).mpr hlt)⟩
  · exact hsm

theorem foldl_neg {r : Rounding} (hr : r = Rounding.exact) {l : List EFloat}
    (h : ∀ t ∈ l, ∃ y, t = .fin y ∧ y < 0) (z : Rat) (hz : z ≤ 0) :
    ∃ y, l.foldl (fun (s : EFloat) t => s.add r t) (.fin z) = .fin y ∧ y ≤ 0 ∧ (l ≠ [] → y < 0) := by
  induction l generalizing z with
  | nil => exact ⟨z, rfl, hz, by simp⟩
  | cons t l ih =>
    obtain ⟨y, rfl, hy⟩ := h t (by simp)
    obtain ⟨u, h1, h2, h3⟩ := ih (fun t ht => h t (by simp [ht])) (z + y) (by linarith)
    rw [List.foldl_cons]
    have e : (EFloat.fin z).add r (.fin y) = .fin (z + y) := by rw [hr]; rfl
    rw [e]
    refine ⟨u, h1, h2, fun _ => ?_⟩
    cases l with
    | nil =>
      cases h1
      linarith
    | cons a l => exact h3 (by simp)

theorem perplexity_pos {alphabet : Alphabet} {ops : List Op} {vm : Vm} {x : TextExt}
    (h : (Vm.new alphabet).run ops = .ok vm)
    (hs : ∀ v ∈ vm.decoder, ∀ ws, TokensOf v.text ws → ws.length ≤ 255)
    (h32 : x.f32 = Rounding.exact) (h64 : x.f64 = Rounding.exact)
    (hln : ∀ a, 0 < a → a < 1 → x.ln32 a < 0) (hd : Discounted vm)
    {syms : List OutputSymbol} {boundaries : List Match}
    (hid : ∀ o ∈ syms, o.vocabId < vm.decoder.length)
    (hb : ∀ o ∈ syms, o.boundaryIndex < boundaries.length) {y : EFloat × EFloat}
    (hy : vm.lmScore x syms boundaries = .ok y) : ∃ a, y.2 = .fin a ∧ 0 < a := by
  obtain ⟨parts, tokens, logprob, _, h2, h3, h4⟩ := lm_score_exact_partial alphabet ops vm x h hs syms
    boundaries hid hb
  rw [h4] at hy
  cases hy
  have hlen : 2 ≤ tokens.length := by rw [h2]; simp
  obtain ⟨u, u1, _, u3⟩ := foldl_neg h32 (l := List.zipWith
    (transition (fun l => (NGram.fromList l).bind vm.ngrams.get?) x) tokens tokens.tail) (by
      intro t ht
      obtain ⟨a, b, _, rfl⟩ : ∃ a b, True ∧ t = transition _ x a b := by
        rw [List.zipWith_eq_zipWith_take_min, ← List.map_uncurry_zip_eq_zipWith] at ht
        obtain ⟨⟨a, b⟩, _, rfl⟩ := List.mem_map.mp ht
        exact ⟨a, b, trivial, rfl⟩
      obtain ⟨t, ht, hneg⟩ := transition_neg h32 hln hd a b
      exact ⟨t, ht, hneg⟩) 0 (le_refl _)
  have hu : u < 0 := u3 (by
    intro h0
    have := congrArg List.length h0
    simp at this
    omega)
  rw [← h3] at u1
  refine ⟨-1 / ((tokens.length - 1 : Nat) : Rat) * u, ?_, ?_⟩
  · simp only [u1, EFloat.scale, h64, Rounding.exact, id]
  · have : (0 : Rat) < ((tokens.length - 1 : Nat) : Rat) := by
      exact_mod_cast (show 0 < tokens.length - 1 by omega)
    refine mul_pos_of_neg_of_neg (div_neg_of_neg_of_pos (by norm_num) this) hu

theorem contextScore_pos {vm : Vm} {x : TextExt} {rules : List ContextRule}
    {syms : List OutputSymbol} (h32 : x.f32 = Rounding.exact) (h64 : x.f64 = Rounding.exact)
    (hok : ∀ r ∈ rules, RuleOk r) (hpos : ∀ r ∈ rules, 0 < r.score)
    {y : Rat × List (List PatternMatchResult)} (h : vm.testContextRules x rules syms = .ok y) :
    0 < y.1 := by
  obtain ⟨A, score, results, h1, h2, _, _, _, h6, h7⟩ := context_rules vm x rules syms hok
  rw [h1] at h
  cases h
  by_cases hA : A = []
  · rw [h6 hA]; exact one_pos
  · obtain ⟨scores, s1, s2, s3, s4⟩ := h7 hA
    have hall : ∀ z ∈ scores, 0 < z := by
      intro z hz
      obtain ⟨i, hi⟩ := List.mem_iff_getElem?.mp hz
      have hlt : i < syms.length := s1 ▸ (List.getElem?_eq_some_iff.mp hi).1
      by_cases hm : ∃ a ∈ A, Marked rules a i
      · obtain ⟨a, ha, hmark⟩ := hm
        obtain ⟨rule, hr, _⟩ := id hmark
        have := s2 a ha rule hr i hmark
        rw [hi] at this
        cases this
        exact hpos rule (List.mem_of_getElem? hr)
      · have := s3 i hlt fun a ha hm' => hm ⟨a, ha, hm'⟩
        rw [hi] at this
        cases this
        exact one_pos
    have hne : 0 < syms.length := by
      obtain ⟨a, ha⟩ := List.exists_mem_of_ne_nil _ hA
      have := (h2.fits a ha).1
      rw [List.length_map] at this
      omega
    have hsum : ∀ (l : List Rat) (z : Rat), 0 ≤ z → (∀ u ∈ l, 0 < u) →
        0 ≤ l.foldl (fun s y => x.f32.rnd (s + y)) z ∧
        (l ≠ [] → 0 < l.foldl (fun s y => x.f32.rnd (s + y)) z) := by
      intro l
      induction l with
      | nil => intro z hz _; exact ⟨hz, by simp⟩
      | cons a l ih =>
        intro z hz hl
        rw [List.foldl_cons]
        have ha := hl a (by simp)
        have e : x.f32.rnd (z + a) = z + a := by rw [h32]; rfl
        rw [e]
        obtain ⟨i1, i2⟩ := ih (z + a) (by linarith) fun u hu => hl u (by simp [hu])
        refine ⟨i1, fun _ => ?_⟩
        cases l with
        | nil => exact lt_of_lt_of_le ha (by simpa using hz)
        | cons b l => exact i2 (by simp)
    have hs0 : scores ≠ [] := by
      rintro rfl
      simp at s1
      omega
    rw [s4, h64]
    exact div_pos ((hsum scores 0 (le_refl _) hall).2 hs0) (by exact_mod_cast hne)

theorem sequenceOf_regular {alphabet : Alphabet} {ops : List Op} {vm : Vm} {x : TextExt}
    {cfg : TextConfig} {p : TextParams} (h : (Vm.new alphabet).run ops = .ok vm)
    (h32 : x.f32 = Rounding.exact) (h64 : x.f64 = Rounding.exact)
    (hln : ∀ a, 0 < a → a < 1 → x.ln32 a < 0)
    (hlm : vm.haveLm = true → 0 < p.lmWeight → Discounted vm ∧
      ∀ v ∈ vm.decoder, ∀ ws, TokensOf v.text ws → ws.length ≤ 255)
    (hok : ∀ r ∈ cfg.contextRules, RuleOk r) (hpos : ∀ r ∈ cfg.contextRules, 0 < r.score)
    {bs : List Match} {syms : List OutputSymbol} {path : FstPath} {s : Seqn}
    (hs : vm.sequenceOf x cfg p bs syms path = .ok s) (hw : 0 < path.weight)
    (hid : ∀ o ∈ s.outputSymbols, o.vocabId < vm.decoder.length)
    (hb : ∀ o ∈ s.outputSymbols, o.boundaryIndex < bs.length) : Regular vm p s := by
  obtain ⟨hs1, hs2⟩ := sequenceOf_symbols hs
  unfold Vm.sequenceOf at hs
  rw [hs1] at hs
  obtain ⟨os, ho, hs⟩ := bind_ok.mp hs
  cases ho
  have rest : ∀ pp : EFloat, (if cfg.contextRules.isEmpty = true then
      (pure { outputSymbols := s.outputSymbols, variantCost := path.weight, perplexity := pp, contextScore := 1, tags := [] } : Res Seqn)
      else do
        let r ← vm.testContextRules x cfg.contextRules s.outputSymbols
        pure { outputSymbols := s.outputSymbols, variantCost := path.weight, perplexity := pp, contextScore := r.1, tags := tagsOf r.2 }) =
      .ok s → s.perplexity = pp ∧ 0 < s.contextScore := by
    intro pp h
    split at h
    · rw [← pure_ok.mp h]
      exact ⟨rfl, one_pos⟩
    · obtain ⟨r, h1, h2⟩ := bind_ok.mp h
      rw [← pure_ok.mp h2]
      exact ⟨rfl, contextScore_pos h32 h64 hok hpos h1⟩
  dsimp only at hs
  split at hs
  · next hc =>
    obtain ⟨y, h1, hs⟩ := bind_ok.mp hs
    obtain ⟨r1, r2⟩ := rest _ hs
    obtain ⟨hd, ht⟩ := hlm hc.1 hc.2
    obtain ⟨a, a1, a2⟩ := perplexity_pos h ht h32 h64 hln hd hid hb h1
    exact ⟨fun _ => ⟨a, by rw [r1, a1], a2⟩, by rw [hs2]; exact hw, r2⟩
  · next hc =>
    obtain ⟨r1, r2⟩ := rest _ hs
    exact ⟨fun h => absurd h hc, by rw [hs2]; exact hw, r2⟩

/-- **C77**: for a batch of at least two words, no reading that the solver proposed is at least as good
as the chosen one in perplexity, cost and context score, and better in one of them (counting only what
has a positive weight).  Arithmetic is exact, variant scores are below 2, scores of rules positive, and
every pair in the language model is rarer than its first token. -/
theorem no_better_reading_partial {alphabet : Alphabet} {ops : List Op} {vm : Vm} {x : TextExt}
    {cfg : TextConfig} {p : TextParams} (hrun : (Vm.new alphabet).run ops = .ok vm)
    (h32 : x.f32 = Rounding.exact) (h64 : x.f64 = Rounding.exact)
    (hln32 : ∀ a, 0 < a → a < 1 → x.ln32 a < 0)
    (hln : ∀ a b, 0 < a → a < b → x.ln64 a < x.ln64 b) (hln1 : x.ln64 1 = 0)
    (hlm : vm.haveLm = true → 0 < p.lmWeight → Discounted vm ∧
      ∀ v ∈ vm.decoder, ∀ ws, TokensOf v.text ws → ws.length ≤ 255)
    (hok : ∀ r ∈ cfg.contextRules, RuleOk r) (hpos : ∀ r ∈ cfg.contextRules, 0 < r.score)
    (hwl : 0 ≤ p.lmWeight) (hwv : 0 < p.variantmodelWeight) (hwc : 0 ≤ p.contextrulesWeight)
    (hsolve : SolverExact x.solve) {o : Nat} {g : List Seg} (hg : IsBatch x.isAlpha g)
    (hlen : 2 ≤ g.length) {all ms : List Match} (hsp : ∀ m ∈ all, ∃ s e, Span o g s e m)
    (hw : ∃ m ∈ all, ∃ s v, Span o g s (s + 1) m ∧ m.variants = some v)
    (hids : ∀ m ∈ all, ∀ vs, m.variants = some vs → ∀ v ∈ vs, v.vocabId < vm.decoder.length)
    (hscore : ∀ m ∈ all, ∀ vs, m.variants = some vs → ∀ v ∈ vs,
      v.score x.f64 p.variant.freqWeight < 2)
    (h : vm.mostLikelySequence x cfg p all (boundariesFrom o g) (o + byteLen (stretch g)) = .ok ms) :
    ∃ fst syms seqs best,
      buildFst x p.variant.freqWeight all (boundariesFrom o g) (o + byteLen (stretch g)) =
        .ok (fst, syms) ∧
      List.Forall₂ (fun path s => vm.sequenceOf x cfg p (boundariesFrom o g) syms path = .ok s)
        (x.solve fst p.maxSeq) seqs ∧
      best ∈ seqs ∧ resultMatches all best.tags 0 best.outputSymbols = .ok ms ∧
      ∀ s ∈ seqs, NoWorse (mixOf vm cfg p) (meritOf vm p s) (meritOf vm p best) →
        ¬ Better (mixOf vm cfg p) (meritOf vm p s) (meritOf vm p best) := by
  obtain ⟨syms, trs, seqs, best, h1, h2, h3, h4, h5, h6, h7⟩ := mostLikelySequence_best hg hsp hw h
  obtain ⟨b, b1, b2, b3⟩ := selectBest_none (vm.combinedScore x cfg p (bestPerplexity seqs)
    (bestCost x.f32 g.length seqs) (bestContext seqs)) seqs h5
  rw [b1] at h6
  cases h6
  refine ⟨_, syms, seqs, b, h1, sequencesOf_ok.mp h4, b2, h7, ?_⟩
  have h0 : 0 < vm.decoder.length := by
    have := (inv_run (inv_new alphabet) hrun).1.bos
    unfold textAt at this
    obtain ⟨v, hv, _⟩ := Option.map_eq_some_iff.mp this
    exact (List.getElem?_eq_some_iff.mp hv).1
  have hreg : ∀ s ∈ seqs, Regular vm p s := by
    intro s hs
    obtain ⟨path, hp, hs⟩ := mem_of_forall₂_right (sequencesOf_ok.mp h4) hs
    obtain ⟨ts, ⟨q, hq, hwk⟩, e1, e2⟩ := hsolve.sound _ _ _ hp
    rw [List.mem_singleton] at hq
    subst hq
    obtain ⟨l, a1, os, a2, _⟩ := walk_route h2 ts 0 hwk
    obtain ⟨s1, s2⟩ := sequenceOf_symbols hs
    have hsym := walk_symbols h2 hwk (e1 ▸ s1)
    refine sequenceOf_regular hrun h32 h64 hln32 hlm hok hpos hs ?_ ?_ ?_
    · rw [e2]
      exact (route_pos h32 hscore a1).1 (by omega)
    · intro sym hm
      rcases (hsym sym hm).2 with h | ⟨m, hm, vs, hv, v, hv', h⟩
      · rw [h]; exact h0
      · rw [h]; exact hids m hm vs hv v hv'
    · intro sym hm
      rw [boundariesFrom_length]
      exact (hsym sym hm).1
  obtain ⟨best, _, _, _, p1, p2, p3, hform⟩ := sequence_score (cfg := cfg) h32 h64 hln1 hlen
    (by positivity) seqs h5 hreg
  intro s hs hno hbet
  have hgt := b3 s hs
  rw [hform s hs, hform b b2] at hgt
  have mpos : ∀ s, Regular vm p s → 0 < (meritOf vm p s).perplexity := by
    intro s hr
    unfold meritOf
    split
    · next hc =>
      obtain ⟨a, ha, hpos⟩ := hr.1 hc
      rw [ha]; exact hpos
    · exact one_pos
  have rs := hreg s hs
  have rb := hreg b b2
  have hmix : 0 ≤ (mixOf vm cfg p).lm ∧ 0 ≤ (mixOf vm cfg p).variant ∧ 0 ≤ (mixOf vm cfg p).context := by
    unfold mixOf
    split
    · exact ⟨le_refl _, zero_le_one, le_refl _⟩
    · exact ⟨hwl, hwv.le, hwc⟩
  have := mixed_lt hln hmix.1 hmix.2.1 hmix.2.2 ⟨p1, mpos s rs, mpos b rb⟩ ⟨p2, rs.2.1, rb.2.1⟩
    ⟨p3, rs.2.2, rb.2.2⟩ hno hbet
  simp only [EFloat.gt, gt_iff_lt, decide_eq_false_iff_not] at hgt
  exact hgt this

/-- **C77**: `no_better_reading_partial` for the batches of a search in text with a built model: everything is
looked up, and the reading is the best of those proposed. -/
theorem batch_no_better_reading_partial {alphabet : Alphabet} {ops : List Op} {vm : Vm} {x : TextExt}
    {cfg : TextConfig} {p : TextParams} (hrun : (Vm.new alphabet).run ops = .ok vm)
    (h32 : x.f32 = Rounding.exact) (h64 : x.f64 = Rounding.exact)
    (hln32 : ∀ a, 0 < a → a < 1 → x.ln32 a < 0)
    (hln : ∀ a b, 0 < a → a < b → x.ln64 a < x.ln64 b) (hln1 : x.ln64 1 = 0)
    (hlm : vm.haveLm = true → 0 < p.lmWeight → Discounted vm ∧
      ∀ v ∈ vm.decoder, ∀ ws, TokensOf v.text ws → ws.length ≤ 255)
    (hok : ∀ r ∈ cfg.contextRules, RuleOk r) (hpos : ∀ r ∈ cfg.contextRules, 0 < r.score)
    (hwl : 0 ≤ p.lmWeight) (hwv : 0 < p.variantmodelWeight) (hwc : 0 ≤ p.contextrulesWeight)
    (hsolve : SolverExact x.solve) (hsp : x.isAlpha ' ' = false)
    (hwt : WeightsOk x.f64 cfg.weights) (hconf : MildConfusables x.f64 cfg.confusables)
    (hlinks : ∀ v ∈ vm.decoder, ∀ t s, VariantReference.variantOf t s ∈ v.variants.getD [] →
      0 ≤ s ∧ s ≤ 1) (hfw : 0 ≤ p.variant.freqWeight) (hn : 2 ≤ p.maxNgram)
    {pre post : List Char} {g : List Seg} (hg : IsBatch x.isAlpha g) (hlen : 2 ≤ g.length)
    {ms : List Match}
    (h : vm.batchMatches x cfg p (pre ++ flat g ++ post) (boundariesFrom (byteLen pre) g)
      (byteLen pre) (byteLen pre + byteLen (stretch g)) = .ok ms) :
    ∃ all fst syms seqs best,
      (∀ (k : Nat), 1 ≤ k → k ≤ p.maxNgram → ∀ run ∈ runsFrom k (byteLen pre) g,
        ∃ m ∈ all, m.text = run.text ∧ m.first = run.first ∧ m.last = run.last ∧
          (k = 1 → m.variants ≠ none)) ∧
      (∀ m ∈ all, ∀ vs, m.variants = some vs →
        vm.findVariants x.toExt cfg.toConfig p.variant m.text = .ok vs) ∧
      buildFst x p.variant.freqWeight all (boundariesFrom (byteLen pre) g)
        (byteLen pre + byteLen (stretch g)) = .ok (fst, syms) ∧
      List.Forall₂ (fun path s =>
        vm.sequenceOf x cfg p (boundariesFrom (byteLen pre) g) syms path = .ok s)
        (x.solve fst p.maxSeq) seqs ∧
      best ∈ seqs ∧ resultMatches all best.tags 0 best.outputSymbols = .ok ms ∧
      ∀ s ∈ seqs, NoWorse (mixOf vm cfg p) (meritOf vm p s) (meritOf vm p best) →
        ¬ Better (mixOf vm cfg p) (meritOf vm p s) (meritOf vm p best) := by
  unfold Vm.batchMatches at h
  obtain ⟨batch, h1, h⟩ := bind_ok.mp h
  rw [if_pos (.inl (by omega))] at h
  obtain ⟨new, e1, e2, e3⟩ := gatherSegments_ok hsp hg p.maxNgram 1 [] batch (Nat.le_refl 1) h1
  rw [List.nil_append] at e1
  subst e1
  obtain ⟨a, w, s, b, hgab, hw⟩ := hg.has_word
  have hr := run_mem (n := 1) (o := byteLen pre) (a := a) (r := [(w, s)]) (b := b) rfl hw
  rw [← hgab] at hr
  obtain ⟨m, hm, h2, h3⟩ := e3 1 _ (Nat.le_refl 1) (by omega) hr
  obtain ⟨v, hv⟩ := h3 rfl
  obtain ⟨s', hs'⟩ := h2.span hr
  have hvar : ∀ m ∈ batch, ∀ vs, m.variants = some vs →
      vm.findVariants x.toExt cfg.toConfig p.variant m.text = .ok vs := by
    intro m hm vs hvs
    obtain ⟨k, run, _, _, h2, h3⟩ := e2 m hm
    exact h3.variants h2 vs hvs
  obtain ⟨fst, syms, seqs, best, r1, r2, r3, r4, r5⟩ := no_better_reading_partial hrun h32 h64 hln32 hln hln1
    hlm hok hpos hwl hwv hwc hsolve hg hlen
    (by
      intro m hm
      obtain ⟨k, run, _, _, h2, h3⟩ := e2 m hm
      obtain ⟨s, hs⟩ := h3.span h2
      exact ⟨s, _, hs⟩) ⟨m, hm, s', v, hs', hv⟩
    (fun m hm vs hvs => find_variants_ids hwt.sum.ne' (hvar m hm vs hvs))
    (fun m hm vs hvs v hv =>
      (variant_scores_between h64 hwt hconf hlinks hfw _ _ (hvar m hm vs hvs) v hv).2) h
  refine ⟨batch, fst, syms, seqs, best, ?_, hvar, r1, r2, r3, r4, r5⟩
  intro k hk1 hk2 run hrun
  obtain ⟨m, hm, h2, h3⟩ := e3 k run hk1 (by omega) hrun
  refine ⟨m, hm, ?_, ?_, ?_, ?_⟩
  · rcases h2 with rfl | ⟨_, _, rfl⟩ <;> rfl
  · rcases h2 with rfl | ⟨_, _, rfl⟩ <;> rfl
  · rcases h2 with rfl | ⟨_, _, rfl⟩ <;> rfl
  · intro hk
    obtain ⟨v, hv⟩ := h3 hk
    rw [hv]
    simp

/-! ## Batches of one word -/

/-- Nothing is greater than a score that is −∞ or not a number, and such a score is not greater either. -/
def Bottom (a : EFloat) : Prop := a = .negInf ∨ a = .nan

theorem Bottom.add_left {a b : EFloat} (r : Rounding) (h : Bottom a) : Bottom (a.add r b) := by
  rcases h with rfl | rfl <;> cases b <;> simp [EFloat.add, Bottom]

theorem Bottom.add_right {a b : EFloat} (r : Rounding) (h : Bottom b) : Bottom (a.add r b) := by
  rcases h with rfl | rfl <;> cases a <;> simp [EFloat.add, Bottom]

theorem Bottom.div {a : EFloat} (r : Rounding) (h : Bottom a) {b : Rat} (hb : 0 ≤ b) :
    Bottom (a.div r false (.fin b)) := by
  rcases h with rfl | rfl
  · unfold EFloat.div
    dsimp only
    split
    · exact .inl rfl
    · next h0 =>
      rw [if_pos (lt_of_le_of_ne hb (Ne.symm h0))]
      exact .inl rfl
  · unfold EFloat.div EFloat.divZero
    dsimp only
    split <;> exact .inr rfl

theorem selectBest_bottom (score : Seqn → EFloat) (s : Seqn) (l : List Seqn)
    (h : ∀ t ∈ s :: l, Bottom (score t)) :
    selectBest score (s :: l) none = some (s, score s) := by
  rw [selectBest]
  have h' : ∀ t ∈ l, Bottom (score t) := fun t ht => h t (by simp [ht])
  clear h
  induction l with
  | nil => rfl
  | cons a l ih =>
    rw [selectBest]
    have : (score a).gt (score s) = false := by
      rcases h' a (by simp) with h | h <;> rw [h] <;> cases score s <;> rfl
    rw [this]
    exact ih fun t ht => h' t (by simp [ht])

/-- The scores of the readings of a single word. -/
theorem single_word_bottom {vm : Vm} {x : TextExt} {cfg : TextConfig} {p : TextParams}
    (h32 : x.f32 = Rounding.exact) (h64 : x.f64 = Rounding.exact)
    (hwl : 0 ≤ p.lmWeight) (hwv : 0 < p.variantmodelWeight) (hwc : 0 ≤ p.contextrulesWeight) {g : List Seg}
    (hlen : g.length = 1) {seqs : List Seqn} (hcost : ∀ s ∈ seqs, 0 < s.variantCost) :
    ∀ s ∈ seqs, Bottom (vm.combinedScore x cfg p (bestPerplexity seqs)
      (bestCost x.f32 g.length seqs) (bestContext seqs) s) := by
  have hzero : bestCost x.f32 g.length seqs = 0 := by
    have c1 := bestCost_least x.f32 g.length seqs
    rw [h32, hlen] at c1
    rw [h32, hlen]
    have h0 : (Rounding.exact.rnd (Rounding.exact.rnd ((1 - 1 : Nat) : Rat) * 2)) = 0 := by
      simp [Rounding.exact]
    rw [h0] at c1
    rcases c1.1 with h | ⟨s, hs, h⟩
    · exact h
    · have := hcost s hs
      have := c1.2 (.inl rfl)
      linarith
  intro s hs
  rw [hzero]
  have hv : EFloat.log x.ln64 (.div x.f64 false (.fin 0) (.fin s.variantCost)) = .negInf := by
    have := (hcost s hs).ne'
    simp [EFloat.div, this, h64, Rounding.exact, EFloat.log]
  unfold Vm.combinedScore
  simp only [hv]
  split
  · exact .inl rfl
  · refine Bottom.div _ (Bottom.add_left _ (Bottom.add_right _ (.inl ?_))) ?_
    · simp [EFloat.scale, hwv]
    · rw [h64]
      simp only [Rounding.exact, id]
      linarith

/-- **C77 fails for batches of one word**: whatever the language model and the rules say, the first path
of the solver is taken, since the lowest cost is taken to be (1 − 1) · 2 = 0 and all scores are −∞ or
not a number. -/
theorem single_word_first {vm : Vm} {x : TextExt} {cfg : TextConfig} {p : TextParams}
    (h32 : x.f32 = Rounding.exact) (h64 : x.f64 = Rounding.exact)
    (hwl : 0 ≤ p.lmWeight) (hwv : 0 < p.variantmodelWeight) (hwc : 0 ≤ p.contextrulesWeight)
    (hsolve : SolverExact x.solve) {o : Nat} {g : List Seg} (hg : IsBatch x.isAlpha g)
    (hlen : g.length = 1) {all ms : List Match} (hsp : ∀ m ∈ all, ∃ s e, Span o g s e m)
    (hw : ∃ m ∈ all, ∃ s v, Span o g s (s + 1) m ∧ m.variants = some v)
    (hscore : ∀ m ∈ all, ∀ vs, m.variants = some vs → ∀ v ∈ vs,
      v.score x.f64 p.variant.freqWeight < 2)
    (h : vm.mostLikelySequence x cfg p all (boundariesFrom o g) (o + byteLen (stretch g)) = .ok ms) :
    ∃ fst syms first rest s,
      buildFst x p.variant.freqWeight all (boundariesFrom o g) (o + byteLen (stretch g)) =
        .ok (fst, syms) ∧
      x.solve fst p.maxSeq = first :: rest ∧
      vm.sequenceOf x cfg p (boundariesFrom o g) syms first = .ok s ∧
      resultMatches all s.tags 0 s.outputSymbols = .ok ms := by
  obtain ⟨syms, trs, seqs, best, h1, h2, h3, h4, h5, h6, h7⟩ := mostLikelySequence_best hg hsp hw h
  have hf := sequencesOf_ok.mp h4
  have hcost : ∀ s ∈ seqs, 0 < s.variantCost := by
    intro s hs
    obtain ⟨path, hp, hs⟩ := mem_of_forall₂_right hf hs
    obtain ⟨ts, ⟨q, hq, hwk⟩, e1, e2⟩ := hsolve.sound _ _ _ hp
    rw [List.mem_singleton] at hq
    subst hq
    obtain ⟨l, a1, _⟩ := walk_route h2 ts 0 hwk
    rw [(sequenceOf_symbols hs).2, e2]
    exact (route_pos h32 hscore a1).1 (by omega)
  have hbot := single_word_bottom (vm := vm) (cfg := cfg) h32 h64 hwl hwv hwc hlen hcost
  cases seqs with
  | nil => exact absurd rfl h5
  | cons s l =>
    rw [selectBest_bottom _ s l hbot] at h6
    cases h6
    generalize hp : x.solve _ _ = paths at hf
    cases hf with
    | cons ha _ => exact ⟨_, syms, _, _, s, h1, hp, ha, h7⟩

/-- A rule that makes `aab` worth a hundred times more. -/
def exBoost : ContextRule := { pattern := [.vocab 5], score := 100, tag := [], tagoffset := [] }

/-- The word `ab` is corrected to `aab` in company, but not on its own. -/
theorem single_word_ignores_rules :
    (plain.findAllMatches exText { exTextConfig with contextRules := [exBoost] }
      { exTextParams with contextrulesWeight := 1000 } "ab b".toList).toOption.map
      (·.map fun m => (m.text, (chosenEntry plain m).1)) = some [("ab".toList, 5)] ∧
    (plain.findAllMatches exText { exTextConfig with contextRules := [exBoost] }
      { exTextParams with contextrulesWeight := 1000 } "ab".toList).toOption.map
      (·.map fun m => (m.text, (chosenEntry plain m).1)) = some [("ab".toList, 3)] := by
  decide +kernel

/-- A batch of one word, with two matches the solver can choose from. -/
example : IsBatch exText.isAlpha [("ab".toList, [])] ∧ SolverExact exText.solve ∧
    exText.f32 = .exact ∧ exText.f64 = .exact ∧ 0 ≤ exTextParams.lmWeight ∧
    0 < exTextParams.variantmodelWeight ∧ 0 ≤ exTextParams.contextrulesWeight ∧
    Span 0 [("ab".toList, [])] 0 1 { text := "ab".toList, first := 0, last := 2, n := 1, variants := some [⟨3, 1, 1, none⟩, ⟨5, 1/2, 1, none⟩] } ∧
    (plain.mostLikelySequence exText { exTextConfig with contextRules := [exBoost] } exTextParams
      [{ text := "ab".toList, first := 0, last := 2, n := 1, variants := some [⟨3, 1, 1, none⟩, ⟨5, 1/2, 1, none⟩] }]
      (boundariesFrom 0 [("ab".toList, [])]) (0 + byteLen (stretch [("ab".toList, [])]))).toOption.map
      (·.map Match.selected) = some [some 0] :=
  ⟨⟨⟨by decide, rfl, by decide +kernel, by decide +kernel, by decide +kernel, by decide +kernel⟩,
    by decide +kernel⟩, refSolver_exact, rfl, rfl, by decide +kernel, by decide +kernel, by decide +kernel,
    ⟨by decide, by decide, by decide +kernel, by decide +kernel, by decide +kernel, by decide, rfl⟩,
    by decide +kernel⟩

/-! ## Examples -/

/-- Two sequences: the second is cheaper, the first has the better context. -/
example : ∀ s ∈ [({ outputSymbols := [], variantCost := 3, perplexity := .fin 7, contextScore := 2, tags := [] } : Seqn),
    { outputSymbols := [], variantCost := 2, perplexity := .fin 7, contextScore := 1, tags := [] }],
    Regular both exTextParams s := by
  intro s hs
  simp only [List.mem_cons, List.not_mem_nil, or_false] at hs
  rcases hs with rfl | rfl <;> exact ⟨fun _ => ⟨7, rfl, by norm_num⟩, by norm_num, by norm_num⟩

/-- Their scores: the mean of ln 1, ln 2/3 and ln 1, and of ln 1, ln 1 and ln 1/2. -/
example : [({ outputSymbols := [], variantCost := 3, perplexity := .fin 7, contextScore := 2, tags := [] } : Seqn),
    { outputSymbols := [], variantCost := 2, perplexity := .fin 7, contextScore := 1, tags := [] }].map
    (both.combinedScore exText exTextConfig exTextParams (.fin 7) 2 2) = [.fin (-1/9), .fin (-1/6)] := by
  decide +kernel

/-- Cheaper with the same context is better. -/
example : NoWorse ⟨1, 1, 1⟩ ⟨7, 2, 1⟩ ⟨7, 3, 1⟩ ∧ Better ⟨1, 1, 1⟩ ⟨7, 2, 1⟩ ⟨7, 3, 1⟩ ∧
    mixed (· - 1) ⟨1, 1, 1⟩ ⟨7, 2, 1⟩ ⟨7, 3, 1⟩ < mixed (· - 1) ⟨1, 1, 1⟩ ⟨7, 2, 1⟩ ⟨7, 2, 1⟩ :=
  ⟨⟨by norm_num, by norm_num, by norm_num⟩, .inr (.inl (by norm_num)), by norm_num [mixed]⟩

theorem both_discounted : Discounted both := by
  have h : both.ngrams = [(.uni 3, 3), (.uni 4, 1), (.bi 3 4, 2)] := by decide +kernel
  intro a b c hc
  have h1 := mem_of_get? (show HMap.get? both.ngrams (.bi a b) = some c from hc)
  rw [h] at h1
  simp only [List.mem_cons, Prod.mk.injEq, reduceCtorEq, NGram.bi.injEq, false_and, false_or,
    List.not_mem_nil, or_false] at h1
  obtain ⟨⟨rfl, rfl⟩, rfl⟩ := h1
  exact ⟨by decide, 3, by decide +kernel, by decide⟩

/-- The hypotheses of `no_better_reading_partial` hold for the batch `a-b`, with a language model and a rule. -/
example : (Vm.new exAlphabet).run bothOps = .ok both ∧ both.haveLm = true ∧ Discounted both ∧
    (∀ a, 0 < a → a < 1 → exText.ln32 a < 0) ∧ (∀ a b, 0 < a → a < b → exText.ln64 a < exText.ln64 b) ∧
    exText.ln64 1 = 0 ∧ RuleOk exPair ∧ 0 < exPair.score ∧ SolverExact exText.solve ∧
    IsBatch exText.isAlpha exBatch ∧ 2 ≤ exBatch.length ∧ WeightsOk exText.f64 exTextConfig.weights ∧
    2 ≤ exTextParams.maxNgram ∧
    (both.batchMatches exText { exTextConfig with contextRules := [exPair] } exTextParams
      ("aaaaa".toList ++ flat exBatch ++ []) (boundariesFrom 5 exBatch) 5
      (5 + byteLen (stretch exBatch))).toOption.map (·.map fun m => (m.text, m.selected)) =
      some [("a".toList, some 0), ("b".toList, some 0)] := by
  refine ⟨rfl, rfl, both_discounted, ?_, ?_, by decide +kernel, exPair_ok, by decide +kernel,
    refSolver_exact, exBatch_ok, by decide, exWeights_ok, by decide, by decide +kernel⟩
  · intro a _ h
    show a - 1 < 0
    linarith
  · intro a b _ h
    show a - 1 < b - 1
    linarith

/-! ## Pairs counted more often than their first token -/

/-- A language model in which `ab b` is counted `n` times, and `ab` 3 times. -/
def pairOps (n : Nat) : List Op :=
  [.add ['a'] (some 4) { vocabType := VocabType.INDEXED.union .LM },
   .add ['b'] (some 1) { vocabType := VocabType.INDEXED.union .LM },
   .add ['a', 'b'] (some 3) { vocabType := VocabType.INDEXED.union .LM },
   .add ['a', 'b', ' ', 'b'] (some n) { vocabType := .LM }, .build exOrders]

def pairVm (n : Nat) : Vm := ((Vm.new exAlphabet).run (pairOps n)).toOption.getD (Vm.new [])

/-- **C77 fails without `Discounted`**: if `ab b` is counted twice, `aa b` is read as `ab b`; if it is
counted a hundred times, the probability exceeds 1, the perplexity is negative, the scores of the other
sequences are not numbers, and the first path of the solver is taken, `a b`.  (The logarithm of this
example is y − 1.) -/
theorem overcounted_pair_loses :
    ((pairVm 2).findAllMatches exText exTextConfig { exTextParams with lmWeight := 1000 }
      "aa b".toList).toOption.map (·.map fun m => (chosenEntry (pairVm 2) m).1) = some [5, 4] ∧
    ((pairVm 100).findAllMatches exText exTextConfig { exTextParams with lmWeight := 1000 }
      "aa b".toList).toOption.map (·.map fun m => (chosenEntry (pairVm 100) m).1) = some [3, 4] ∧
    [3, 4, 5].map (fun i => ((pairVm 100).decoder[i]?).map VocabValue.text) =
      [some ['a'], some ['b'], some ['a', 'b']] := by
  decide +kernel

end Verif.Props
