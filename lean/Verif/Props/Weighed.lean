import Verif.Lemmas.Weighed
import Verif.Props.Reading
import Verif.Props.Reckon

/-!
# Readings compared with the arithmetic of IEEE 754 (C122)
-/
namespace Verif.Props

open Verif.Spec Verif.Model Verif.Lemmas

/-! ## The solver -/

/-- The solver that adds costs in floating point returns the paths with the least sums. -/
theorem sumSolver_least (r : Rounding) {τ : Rat} (hτ : 0 ≤ τ) : SolverLeast r τ (sumSolver r) := by
  intro f n
  let le : List Tr → List Tr → Prop := fun a b => added r (a.map Tr.cost) ≤ added r (b.map Tr.cost)
  have : Std.Total le := ⟨fun a b => le_total _ _⟩
  have : IsTrans (List Tr) le := ⟨fun a b c h h' => le_trans h h'⟩
  let ws := ((walks f.trs (f.finals.foldr max 0) 0).filter fun w => f.finals.contains w.2).map Prod.fst
  have hsorted : (ws.insertionSort le).Pairwise le := List.pairwise_insertionSort _ _
  refine ⟨(ws.insertionSort le).take n, ?_, ?_, ?_, ?_, ?_, ?_⟩
  · unfold sumSolver
    rw [List.map_take, List.map_insertionSort (r := le) (s := fun a b : FstPath => a.weight ≤ b.weight)]
    · rw [List.map_map]
      simp only [roundedSum]
      rfl
    · intro a _ b _
      exact Iff.rfl
  · intro ts hts
    have hts := List.mem_of_mem_take hts
    rw [List.mem_insertionSort, List.mem_map] at hts
    obtain ⟨w, h1, rfl⟩ := hts
    rw [List.mem_filter, List.contains_iff_mem] at h1
    exact ⟨w.2, h1.2, walk_of_walks h1.1⟩
  · intro hn
    refine List.Nodup.sublist (List.take_sublist _ _) ?_
    rw [(List.perm_insertionSort le ws).nodup_iff]
    exact (walks_nodup hn _ _).sublist (List.filter_sublist.map _)
  · exact List.length_take_le _ _
  · intro _ ts hts ts' hts'
    have hs := hsorted.sublist (List.take_sublist n _)
    generalize (ws.insertionSort le).take n = l at *
    cases l with
    | nil => cases hts'
    | cons a l =>
      cases hts
      rcases List.mem_cons.mp hts' with rfl | h
      · exact le_refl _
      · exact (List.pairwise_cons.mp hs).1 _ h
  · intro hf ts ⟨q, hq, hw⟩ hno
    obtain ⟨h1, _⟩ := walks_of_walk hf (n := f.finals.foldr max 0) hw
      (by have := le_foldr_max hq; omega)
    have hm : ts ∈ ws.insertionSort le := by
      rw [List.mem_insertionSort, List.mem_map]
      exact ⟨(ts, q), List.mem_filter.mpr ⟨h1, by simpa using hq⟩, rfl⟩
    have hd : ts ∈ (ws.insertionSort le).drop n := by
      rw [← List.take_append_drop n (ws.insertionSort le), List.mem_append] at hm
      exact hm.resolve_left hno
    constructor
    · rw [List.length_take]
      have := List.length_pos_of_mem hd
      rw [List.length_drop] at this
      omega
    · intro ts' hts'
      rw [← List.take_append_drop n (ws.insertionSort le), List.pairwise_append] at hsorted
      have := hsorted.2.2 ts' hts' ts hd
      exact le_add_of_le_of_nonneg this hτ

theorem _root_.Verif.Spec.SolverLeast.ok {r : Rounding} {τ : Rat} {solve : Fst → Nat → List FstPath}
    (h : SolverLeast r τ solve) : SolverOk solve where
  sound := fun f n π hp => by
    obtain ⟨tss, h1, h2, _⟩ := h f n
    rw [h1, List.mem_map] at hp
    obtain ⟨ts, h3, rfl⟩ := hp
    exact ⟨ts, h2 ts h3, rfl⟩
  complete := fun f n ts hn hf ha he => by
    obtain ⟨tss, h1, _, _, _, _, h6⟩ := h f n
    rw [h1, List.map_eq_nil_iff] at he
    subst he
    have := (h6 hf ts ha (by simp)).1
    simp at this
    omega

theorem summed_nonneg (r : Rounding) {l : List Rat} (h : ∀ y ∈ l, 0 ≤ y) : 0 ≤ summed r l := by
  unfold summed
  suffices hs : ∀ (l : List Rat) (z : Rat), 0 ≤ z → (∀ y ∈ l, 0 ≤ y) →
      0 ≤ l.foldl (fun s y => r.rnd (s + y)) z from hs l 0 (le_refl _) h
  clear h l
  intro l
  induction l with
  | nil => intro z hz _; exact hz
  | cons a l ih =>
    intro z hz h
    rw [List.foldl_cons]
    exact ih _ (rnd_nonneg _ (add_nonneg hz (h a (by simp)))) fun y hy => h y (by simp [hy])

theorem added_summed (r : Rounding) (l : List Rat) : added r l = summed r (l.map r.rnd) := by
  rw [added, summed, List.foldl_map]

theorem added_nonneg (r : Rounding) {l : List Rat} (h : ∀ y ∈ l, 0 ≤ y) : 0 ≤ added r l := by
  rw [added_summed]
  refine summed_nonneg _ ?_
  intro y hy
  obtain ⟨z, hz, rfl⟩ := List.mem_map.mp hy
  exact rnd_nonneg _ (h z hz)

/-! ## The choice -/

/-- What was chosen is greater than what came before, and a number or infinite unless it is the first. -/
theorem selectBest_beats (score : Seqn → EFloat) (s : Seqn) (l : List Seqn) :
    ∃ b l1 l2, selectBest score (s :: l) none = some (b, score b) ∧ s :: l = l1 ++ b :: l2 ∧
      (l1 ≠ [] → ¬ Bottom (score b)) ∧
      (∀ t ∈ l1, score t ≠ .nan → (score b).gt (score t) = true) ∧
      ∀ t ∈ s :: l, (score t).gt (score b) = false := by
  rw [selectBest]
  suffices h : ∀ (l seen : List Seqn) (b : Seqn) (l1 l2 : List Seqn), seen = l1 ++ b :: l2 →
      (l1 ≠ [] → ¬ Bottom (score b)) →
      (∀ t ∈ l1, score t ≠ .nan → (score b).gt (score t) = true) →
      (∀ t ∈ seen, (score t).gt (score b) = false) →
      ∃ b' l1' l2', selectBest score l (some (b, score b)) = some (b', score b') ∧
        seen ++ l = l1' ++ b' :: l2' ∧ (l1' ≠ [] → ¬ Bottom (score b')) ∧
        (∀ t ∈ l1', score t ≠ .nan → (score b').gt (score t) = true) ∧
        ∀ t ∈ seen ++ l, (score t).gt (score b') = false by
    have := h l [s] s [] [] rfl (by simp) (by simp) (by
      intro t ht
      rw [List.mem_singleton] at ht
      subst ht
      cases score t <;> simp [EFloat.gt])
    simpa using this
  clear l
  intro l
  induction l with
  | nil =>
    intro seen b l1 l2 h1 h2 h3 h4
    exact ⟨b, l1, l2, rfl, by simpa using h1, h2, h3, by simpa using h4⟩
  | cons a l ih =>
    intro seen b l1 l2 h1 h2 h3 h4
    rw [selectBest]
    by_cases hg : (score a).gt (score b) = true
    · rw [if_pos hg]
      obtain ⟨b', l1', l2', k1, k2, k3, k4, k5⟩ := ih (seen ++ [a]) a seen [] (by simp) (by
        intro _ hb
        rcases hb with hb | hb <;> rw [hb] at hg <;> simp [EFloat.gt] at hg) (by
        intro t ht hn
        have := h4 t ht
        revert hg this hn
        cases score t <;> cases score a <;> cases score b <;> simp [EFloat.gt]
        intro h6 h7
        exact lt_of_le_of_lt h7 h6) (by
        intro t ht
        rcases List.mem_append.mp ht with ht | ht
        · have := h4 t ht
          revert hg this
          cases score t <;> cases score a <;> cases score b <;> simp [EFloat.gt]
          intro h6 h7
          exact h7.trans h6.le
        · rw [List.mem_singleton] at ht
          subst ht
          cases score t <;> simp [EFloat.gt])
      exact ⟨b', l1', l2', k1, by simpa using k2, k3, k4, by simpa using k5⟩
    · rw [if_neg hg]
      obtain ⟨b', l1', l2', k1, k2, k3, k4, k5⟩ := ih (seen ++ [a]) b l1 (l2 ++ [a]) (by simp [h1]) h2 h3 (by
        intro t ht
        rcases List.mem_append.mp ht with ht | ht
        · exact h4 t ht
        · rw [List.mem_singleton] at ht
          subst ht
          simpa using hg)
      exact ⟨b', l1', l2', k1, by simpa using k2, k3, k4, by simpa using k5⟩

/-! ## Scores -/

theorem Bottom.scale {a : EFloat} (r : Rounding) (h : Bottom a) {w : Rat} (hw : 0 ≤ w) :
    Bottom (a.scale r w) := by
  rcases h with rfl | rfl
  · unfold EFloat.scale
    dsimp only
    split
    · exact .inl rfl
    · rw [if_neg (not_lt.mpr hw)]
      exact .inr rfl
  · exact .inr rfl

/-- Not a number, infinite, or at least 0. -/
def Nonnegative (a : EFloat) : Prop := a = .nan ∨ a = .posInf ∨ ∃ y, 0 ≤ y ∧ a = .fin y

/-- The logarithm of how a figure compares to a lower bound. -/
theorem ratio_log {x : TextExt} (hln : ∀ a b, 0 < a → a ≤ b → x.ln64 a ≤ x.ln64 b) {y : Rat} (hy : 0 ≤ y)
    (neg : Bool) {a : EFloat} (ha : Nonnegative a) (hya : a ≠ .nan → (EFloat.fin y).gt a = false) :
    (Bottom (.log x.ln64 (.div x.f64 neg (.fin y) a)) ∨
      ∃ v, EFloat.log x.ln64 (.div x.f64 neg (.fin y) a) = .fin v ∧
        ∀ b, Nonnegative b → (EFloat.fin y).gt b = false → AtMost b a →
          ∃ v', EFloat.log x.ln64 (.div x.f64 neg (.fin y) b) = .fin v' ∧ v ≤ v') := by
  rcases ha with rfl | rfl | ⟨q, hq, rfl⟩
  · exact .inl (.inr rfl)
  · left
    left
    simp [EFloat.div, EFloat.log]
  · have hyq : y ≤ q := by
      have := hya (by simp)
      simpa [EFloat.gt] using this
    by_cases h0 : q = 0
    · left
      right
      have : y = 0 := by linarith
      simp [EFloat.div, EFloat.divZero, EFloat.log, h0, this]
    · have hq0 : 0 < q := lt_of_le_of_ne hq (Ne.symm h0)
      have hr := rnd_nonneg x.f64 (div_nonneg hy hq)
      by_cases hp : 0 < x.f64.rnd (y / q)
      · right
        refine ⟨x.ln64 (x.f64.rnd (y / q)), by simp [EFloat.div, EFloat.log, h0, hp], ?_⟩
        intro b hb hyb hab
        obtain ⟨h1, _, h3⟩ := hab
        rcases hb with rfl | rfl | ⟨q', hq', rfl⟩
        · exact absurd rfl h1
        · simp [EFloat.gt] at h3
        · have h3 : q' ≤ q := by simpa [EFloat.gt] using h3
          have hyb : y ≤ q' := by simpa [EFloat.gt] using hyb
          have hy0 : 0 < y := by
            rcases hy.lt_or_eq with h | h
            · exact h
            · rw [← h, zero_div, x.f64.zero] at hp
              exact absurd hp (lt_irrefl _)
          have hq'0 : 0 < q' := lt_of_lt_of_le hy0 hyb
          have hle : x.f64.rnd (y / q) ≤ x.f64.rnd (y / q') :=
            x.f64.mono _ _ (div_le_div_of_nonneg_left hy hq'0 h3)
          exact ⟨x.ln64 (x.f64.rnd (y / q')), by
            simp [EFloat.div, EFloat.log, hq'0.ne', lt_of_lt_of_le hp hle], hln _ _ hp hle⟩
      · left
        left
        have : x.f64.rnd (y / q) = 0 := le_antisymm (not_lt.mp hp) hr
        simp [EFloat.div, EFloat.log, h0, this]

/-- The logarithm of how a figure compares to an upper bound. -/
theorem share_log {x : TextExt} (hln : ∀ a b, 0 < a → a ≤ b → x.ln64 a ≤ x.ln64 b) {y : Rat}
    {q : Rat} (hq : 0 ≤ q) (hqy : q ≤ y) :
    (Bottom (.log x.ln64 (.div x.f64 false (.fin q) (.fin y))) ∨
      ∃ v, EFloat.log x.ln64 (.div x.f64 false (.fin q) (.fin y)) = .fin v ∧
        ∀ q', q ≤ q' → ∃ v', EFloat.log x.ln64 (.div x.f64 false (.fin q') (.fin y)) = .fin v' ∧ v ≤ v') := by
  by_cases h0 : y = 0
  · left
    right
    have : q = 0 := by linarith
    simp [EFloat.div, EFloat.divZero, EFloat.log, h0, this]
  · have hy0 : 0 < y := lt_of_le_of_ne (hq.trans hqy) (Ne.symm h0)
    have hr := rnd_nonneg x.f64 (div_nonneg hq hy0.le)
    by_cases hp : 0 < x.f64.rnd (q / y)
    · right
      refine ⟨x.ln64 (x.f64.rnd (q / y)), by simp [EFloat.div, EFloat.log, h0, hp], ?_⟩
      intro q' hq'
      have hle : x.f64.rnd (q / y) ≤ x.f64.rnd (q' / y) :=
        x.f64.mono _ _ (div_le_div_of_nonneg_right hq' hy0.le)
      exact ⟨x.ln64 (x.f64.rnd (q' / y)), by
        simp [EFloat.div, EFloat.log, h0, lt_of_lt_of_le hp hle], hln _ _ hp hle⟩
    · left
      left
      have : x.f64.rnd (q / y) = 0 := le_antisymm (not_lt.mp hp) hr
      simp [EFloat.div, EFloat.log, h0, this]

/-- A sequence that is no worse than another one in any respect has no lower score, if that of the other one is
a number or infinite. -/
theorem combined_mono {vm : Vm} {x : TextExt} {cfg : TextConfig} {p : TextParams}
    (hln : ∀ a b, 0 < a → a ≤ b → x.ln64 a ≤ x.ln64 b)
    (hwl : 0 ≤ p.lmWeight) (hwv : 0 ≤ p.variantmodelWeight) (hwc : 0 ≤ p.contextrulesWeight)
    {y c m : Rat} (hy : 0 ≤ y) (hc : 0 ≤ c) {s b : Seqn}
    (hs : Nonnegative s.perplexity ∧ (EFloat.fin y).gt s.perplexity = false ∧ c ≤ s.variantCost)
    (hb : Nonnegative b.perplexity ∧ (b.perplexity ≠ .nan → (EFloat.fin y).gt b.perplexity = false) ∧
      c ≤ b.variantCost ∧ 0 ≤ b.contextScore ∧ b.contextScore ≤ m)
    (h1 : AtMost s.perplexity b.perplexity) (h2 : s.variantCost ≤ b.variantCost)
    (h3 : b.contextScore ≤ s.contextScore)
    (hbot : ¬ Bottom (vm.combinedScore x cfg p (.fin y) c m b)) :
    vm.combinedScore x cfg p (.fin y) c m s ≠ .nan ∧
      (vm.combinedScore x cfg p (.fin y) c m b).gt (vm.combinedScore x cfg p (.fin y) c m s) = false := by
  have hvar := ratio_log (x := x) hln hc false (a := .fin b.variantCost)
    (.inr (.inr ⟨_, hc.trans hb.2.2.1, rfl⟩)) (fun _ => by simpa [EFloat.gt] using hb.2.2.1)
  have hvs : ∀ v, (∀ b', Nonnegative b' → (EFloat.fin c).gt b' = false → AtMost b' (.fin b.variantCost) →
      ∃ v', EFloat.log x.ln64 (.div x.f64 false (.fin c) b') = .fin v' ∧ v ≤ v') →
      ∃ v', EFloat.log x.ln64 (.div x.f64 false (.fin c) (.fin s.variantCost)) = .fin v' ∧ v ≤ v' := by
    intro v h
    exact h _ (.inr (.inr ⟨_, hc.trans hs.2.2, rfl⟩)) (by simpa [EFloat.gt] using hs.2.2)
      ⟨by simp, by simp, by simpa [EFloat.gt] using h2⟩
  unfold Vm.combinedScore at hbot ⊢
  dsimp only at hbot ⊢
  split at hbot
  · next hcond =>
    rw [if_pos hcond, if_pos hcond]
    rcases hvar with h | ⟨v, e1, h⟩
    · exact absurd h hbot
    · obtain ⟨v', e2, hle⟩ := hvs v h
      rw [e1, e2]
      exact ⟨by simp, by simpa [EFloat.gt] using hle⟩
  · next hcond =>
    rw [if_neg hcond, if_neg hcond]
    have hD : 0 ≤ x.f64.rnd (x.f64.rnd (p.lmWeight + p.variantmodelWeight) + p.contextrulesWeight) :=
      rnd_nonneg _ (add_nonneg (rnd_nonneg _ (add_nonneg hwl hwv)) hwc)
    generalize x.f64.rnd (x.f64.rnd (p.lmWeight + p.variantmodelWeight) + p.contextrulesWeight) = D at *
    have hlm : ∀ z : EFloat, (if vm.haveLm = true ∧ p.lmWeight > 0 then
          EFloat.log x.ln64 (.div x.f64 true (.fin y) b.perplexity) else .fin 0) = z →
        Bottom z ∨ ∃ v, z = .fin v ∧ ∃ v', (if vm.haveLm = true ∧ p.lmWeight > 0 then
          EFloat.log x.ln64 (.div x.f64 true (.fin y) s.perplexity) else .fin 0) = .fin v' ∧ v ≤ v' := by
      rintro z rfl
      split
      · rcases ratio_log (x := x) hln hy true hb.1 hb.2.1 with h | ⟨v, e1, h⟩
        · exact .inl h
        · exact .inr ⟨v, e1, h _ hs.1 hs.2.1 h1⟩
      · exact .inr ⟨0, rfl, 0, rfl, le_refl _⟩
    have hctx := share_log (x := x) hln hb.2.2.2.1 hb.2.2.2.2
    rcases hlm _ rfl with h | ⟨v1, e1, v1', e1', l1⟩
    · exact absurd (Bottom.div _ (Bottom.add_left _ (Bottom.add_left _ (Bottom.scale _ h hwl))) hD) hbot
    rcases hvar with h | ⟨v2, e2, h⟩
    · exact absurd (Bottom.div _ (Bottom.add_left _ (Bottom.add_right _ (Bottom.scale _ h hwv))) hD) hbot
    obtain ⟨v2', e2', l2⟩ := hvs v2 h
    rcases hctx with h | ⟨v3, e3, h⟩
    · exact absurd (Bottom.div _ (Bottom.add_right _ (Bottom.scale _ h hwc)) hD) hbot
    obtain ⟨v3', e3', l3⟩ := h _ h3
    rw [e1, e2, e3] at hbot ⊢
    rw [e1', e2', e3']
    simp only [EFloat.scale, EFloat.add] at hbot ⊢
    have hsum : x.f64.rnd (x.f64.rnd (x.f64.rnd (p.lmWeight * v1) + x.f64.rnd (p.variantmodelWeight * v2)) +
        x.f64.rnd (p.contextrulesWeight * v3)) ≤
        x.f64.rnd (x.f64.rnd (x.f64.rnd (p.lmWeight * v1') + x.f64.rnd (p.variantmodelWeight * v2')) +
          x.f64.rnd (p.contextrulesWeight * v3')) := by
      refine x.f64.mono _ _ (add_le_add (x.f64.mono _ _ (add_le_add ?_ ?_)) ?_) <;>
        refine x.f64.mono _ _ (mul_le_mul_of_nonneg_left ?_ ?_) <;> assumption
    generalize x.f64.rnd (x.f64.rnd (x.f64.rnd (p.lmWeight * v1) + x.f64.rnd (p.variantmodelWeight * v2)) +
        x.f64.rnd (p.contextrulesWeight * v3)) = A at *
    generalize x.f64.rnd (x.f64.rnd (x.f64.rnd (p.lmWeight * v1') + x.f64.rnd (p.variantmodelWeight * v2')) +
          x.f64.rnd (p.contextrulesWeight * v3')) = B at *
    by_cases h0 : D = 0
    · simp only [EFloat.div, h0, if_true, EFloat.divZero] at hbot ⊢
      by_cases hA : 0 < A
      · have hB := lt_of_lt_of_le hA hsum
        simp [hA.ne', hB.ne', not_lt.mpr hA.le, not_lt.mpr hB.le, EFloat.gt]
      · exfalso
        refine hbot ?_
        by_cases hA0 : A = 0
        · rw [if_pos hA0]; exact .inr rfl
        · have : A < 0 := lt_of_le_of_ne (not_lt.mp hA) hA0
          simp [hA0, this, Bottom]
    · simp only [EFloat.div, h0, if_false]
      refine ⟨by simp, ?_⟩
      have : x.f64.rnd (A / D) ≤ x.f64.rnd (B / D) := x.f64.mono _ _ (div_le_div_of_nonneg_right hsum hD)
      simpa [EFloat.gt] using this

/-! ## Perplexities -/

/-- The counts of a language model as they come from texts: no pair was counted more often than its first token
(once, if that is unknown). -/
def Plausible (vm : Vm) : Prop :=
  ∀ a b c, (NGram.fromList [a, b]).bind vm.ngrams.get? = some c →
    c ≤ ((NGram.fromList [a]).bind vm.ngrams.get?).getD 1

/-- Not a number, minus infinity, or at most 0. -/
def Nonpositive (a : EFloat) : Prop := a = .nan ∨ a = .negInf ∨ ∃ y, y ≤ 0 ∧ a = .fin y

theorem rnd_nonpos (r : Rounding) {y : Rat} (h : y ≤ 0) : r.rnd y ≤ 0 := by
  rw [← r.zero]
  exact r.mono _ _ h

theorem transition_nonpos {T : Type} {count : List T → Option Nat} {x : TextExt}
    (hln : ∀ a, 0 < a → a ≤ 1 → x.ln32 a ≤ 0)
    (hd : ∀ a b c, count [a, b] = some c → c ≤ (count [a]).getD 1) (a b : Option T) :
    Nonpositive (transition count x a b) := by
  have hsm : Nonpositive (EFloat.fin (x.f32.rnd SMOOTHING)) :=
    .inr (.inr ⟨_, rnd_nonpos _ (by norm_num [SMOOTHING]), rfl⟩)
  unfold transition
  split
  · next a b =>
    dsimp only
    cases hc : count [a, b] with
    | none => exact hsm
    | some c =>
      have h2 := hd a b c hc
      dsimp only
      generalize (count [a]).getD 1 = n at *
      rw [if_pos h2]
      have hc : x.f32.rnd c ≤ x.f32.rnd n := x.f32.mono _ _ (by exact_mod_cast h2)
      have hc0 : 0 ≤ x.f32.rnd c := rnd_nonneg _ (by positivity)
      by_cases hn0 : x.f32.rnd n = 0
      · have : x.f32.rnd c = 0 := le_antisymm (hn0 ▸ hc) hc0
        left
        simp [EFloat.div, EFloat.divZero, EFloat.log, hn0, this]
      have hn : 0 < x.f32.rnd n := lt_of_le_of_ne (hc0.trans hc) (Ne.symm hn0)
      have hq : x.f32.rnd (x.f32.rnd c / x.f32.rnd n) ≤ 1 := by
        rw [← x.f32.one]
        refine x.f32.mono _ _ ?_
        exact (div_le_one hn).mpr hc
      have hq0 : 0 ≤ x.f32.rnd (x.f32.rnd c / x.f32.rnd n) := rnd_nonneg _ (div_nonneg hc0 hn.le)
      simp only [EFloat.div, hn0, if_false, EFloat.log]
      by_cases hp : x.f32.rnd (x.f32.rnd c / x.f32.rnd n) > 0
      · rw [if_pos hp]
        exact .inr (.inr ⟨_, hln _ hp hq, rfl⟩)
      · rw [if_neg hp, if_pos (le_antisymm (not_lt.mp hp) hq0)]
        exact .inr (.inl rfl)
  · exact hsm

theorem mean_nonneg {T : Type} {count : List T → Option Nat} {x : TextExt}
    (hln : ∀ a, 0 < a → a ≤ 1 → x.ln32 a ≤ 0)
    (hd : ∀ a b c, count [a, b] = some c → c ≤ (count [a]).getD 1) (tokens : List (Option T)) :
    Nonnegative (minusMean x (List.zipWith (transition count x) tokens tokens.tail)) := by
  have hall : ∀ t ∈ List.zipWith (transition count x) tokens tokens.tail, Nonpositive t := by
    intro t ht
    rw [List.mem_iff_getElem] at ht
    obtain ⟨i, hi, rfl⟩ := ht
    rw [List.getElem_zipWith]
    exact transition_nonpos hln hd _ _
  have hsum : ∀ (ts : List EFloat) (z : EFloat), Nonpositive z → (∀ t ∈ ts, Nonpositive t) →
      Nonpositive (ts.foldl (fun (s : EFloat) t => s.add x.f32 t) z) := by
    intro ts
    induction ts with
    | nil => intro z hz _; exact hz
    | cons t ts ih =>
      intro z hz hts
      rw [List.foldl_cons]
      refine ih _ ?_ fun t' ht' => hts t' (by simp [ht'])
      rcases hz with rfl | rfl | ⟨u, hu, rfl⟩ <;> rcases hts t (by simp) with rfl | rfl | ⟨w, hw, rfl⟩
      any_goals exact .inl rfl
      any_goals exact .inr (.inl rfl)
      exact .inr (.inr ⟨_, rnd_nonpos _ (add_nonpos hu hw), rfl⟩)
  generalize List.zipWith (transition count x) tokens tokens.tail = ts at hall
  have hw : x.f64.rnd (-1 / (ts.length : Rat)) ≤ 0 := by
    refine rnd_nonpos _ ?_
    rw [neg_div]
    exact neg_nonpos.mpr (by positivity)
  unfold minusMean
  rcases hsum _ (.fin 0) (.inr (.inr ⟨0, le_refl _, rfl⟩)) hall with h | h | ⟨u, hu, h⟩
  · rw [h]
    exact .inl rfl
  · rw [h]
    simp only [EFloat.scale]
    rw [if_neg (not_lt.mpr hw)]
    split
    · exact .inr (.inl rfl)
    · exact .inl rfl
  · rw [h]
    exact .inr (.inr ⟨_, rnd_nonneg _ (mul_nonneg_of_nonpos_of_nonpos hw hu), rfl⟩)

theorem nonnegative_iff {a : EFloat} : Nonnegative a ↔ (EFloat.fin 0).gt a = false := by
  cases a <;> simp [Nonnegative, EFloat.gt]

theorem gt_trans {a b c : EFloat} (hb : b ≠ .nan) (h1 : a.gt b = false) (h2 : b.gt c = false) : a.gt c = false := by
  cases a <;> cases b <;> cases c <;> simp_all [EFloat.gt]
  exact h1.trans h2

/-- The least perplexity. -/
theorem bestPerplexity_computed (l : List Seqn) :
    (bestPerplexity l = .fin 999999 ∨ ∃ s ∈ l, bestPerplexity l = s.perplexity) ∧ bestPerplexity l ≠ .nan ∧
      (bestPerplexity l).gt (.fin 999999) = false ∧
      ∀ s ∈ l, s.perplexity ≠ .nan → (bestPerplexity l).gt s.perplexity = false := by
  unfold bestPerplexity
  suffices hs : ∀ (l : List Seqn) (z : EFloat), z ≠ .nan → ∀ b,
      l.foldl (fun (best : EFloat) s => if best.gt s.perplexity then s.perplexity else best) z = b →
      (b = z ∨ ∃ s ∈ l, b = s.perplexity) ∧ b ≠ .nan ∧ b.gt z = false ∧
      ∀ s ∈ l, s.perplexity ≠ .nan → b.gt s.perplexity = false by
    exact hs l (.fin 999999) (by simp) _ rfl
  clear l
  intro l
  induction l with
  | nil =>
    rintro z hz b rfl
    exact ⟨.inl rfl, hz, by cases z <;> simp [EFloat.gt], by simp⟩
  | cons s l ih =>
    intro z hz b hb
    rw [List.foldl_cons] at hb
    by_cases hg : z.gt s.perplexity = true
    · rw [if_pos hg] at hb
      have hn : s.perplexity ≠ .nan := by
        intro e
        rw [e] at hg
        cases z <;> simp [EFloat.gt] at hg
      obtain ⟨h1, h2, h3, h4⟩ := ih _ hn b hb
      refine ⟨.inr ?_, h2, gt_trans hn h3 ?_, ?_⟩
      · rcases h1 with h1 | ⟨t, ht, h1⟩
        · exact ⟨s, by simp, h1⟩
        · exact ⟨t, by simp [ht], h1⟩
      · revert hg
        generalize s.perplexity = q
        cases z <;> cases q <;> simp [EFloat.gt]
        exact le_of_lt
      · intro t ht ht'
        rcases List.mem_cons.mp ht with rfl | ht
        · exact h3
        · exact h4 t ht ht'
    · rw [if_neg hg] at hb
      obtain ⟨h1, h2, h3, h4⟩ := ih _ hz b hb
      refine ⟨h1.imp_right fun ⟨t, ht, e⟩ => ⟨t, by simp [ht], e⟩, h2, h3, ?_⟩
      intro t ht ht'
      rcases List.mem_cons.mp ht with rfl | ht
      · exact gt_trans hz h3 (by simpa using hg)
      · exact h4 t ht ht'

/-! ## Figures -/

theorem perplexity_computed {alphabet : Alphabet} {ops : List Op} {vm : Vm} {x : TextExt}
    (h : (Vm.new alphabet).run ops = .ok vm)
    (hs : ∀ v ∈ vm.decoder, ∀ ws, TokensOf v.text ws → ws.length ≤ 255)
    {all bs : List Match} {syms : List OutputSymbol} (hfit : ∀ o ∈ syms, SymbolFits all bs o)
    (hid : ∀ o ∈ syms, o.vocabId < vm.decoder.length) {y : EFloat × EFloat}
    (hy : vm.lmScore x syms bs = .ok y) :
    ComputedPerplexity vm x (syms.map (partOf all bs)) y.2 := by
  obtain ⟨parts, tokens, logprob, h1, h2, h3, h4⟩ := lm_score_exact_partial alphabet ops vm x h hs syms
    bs hid (fun o ho => (hfit o ho).2.1)
  rw [h4] at hy
  cases hy
  refine ⟨parts.map fun p => p.1 ++ p.2, tokens, ?_, by rw [h2]; rfl, by
    rw [h3, minusMean, List.length_zipWith, List.length_tail, min_eq_right (Nat.sub_le _ _)]⟩
  clear h2 h4 hid
  induction h1 with
  | nil => exact .nil
  | @cons s p ss ps h6 _ ih =>
    refine .cons ?_ (ih fun o ho => hfit o (by simp [ho]))
    obtain ⟨h7, b, h8, h9⟩ := h6
    obtain ⟨⟨m, hm⟩, hb, hc⟩ := hfit s (by simp)
    have hsep : (partOf all bs s).sep = b.text := by
      unfold partOf
      rw [hm]
      simp [h8]
    refine ⟨p.1, p.2, rfl, by rw [hsep]; exact h9, ?_⟩
    rcases hc with ⟨c, c1, c2, _⟩ | ⟨c1, c2⟩
    · rcases h7 with ⟨d1, d2⟩ | ⟨d1, d2⟩
      · left
        refine ⟨?_, d2⟩
        intro v hv
        rw [c1] at hv
        cases hv
        rw [← c2, d1]
      · exact .inr ⟨c, c1, by rw [← c2]; exact d1, by rw [← c2]; exact d2⟩
    · rcases h7 with ⟨d1, d2⟩ | ⟨d1, d2⟩
      · left
        refine ⟨?_, d2⟩
        intro v hv
        rw [c1] at hv
        cases hv
      · exact absurd c2 d1

theorem context_computed {vm : Vm} {x : TextExt} {rules : List ContextRule} {all bs : List Match}
    {syms : List OutputSymbol} (hok : ∀ r ∈ rules, RuleOk r) (hfit : ∀ o ∈ syms, SymbolFits all bs o)
    {y : Rat × List (List PatternMatchResult)} (h : vm.testContextRules x rules syms = .ok y) :
    ComputedContext vm x rules (syms.map (partOf all bs)) y.1 := by
  obtain ⟨A, score, results, h1, h2, _, _, _, h6, h7⟩ := context_rules vm x rules syms hok
  rw [h1] at h
  cases h
  have he : (syms.map (partOf all bs)).map (Part.entry vm) = syms.map vm.symbolLexindex := by
    rw [List.map_map]
    exact List.map_congr_left fun s hs => entry_eq (hfit s hs)
  refine ⟨A, by rw [he]; exact h2, ?_⟩
  by_cases hA : A = []
  · exact .inl ⟨hA, h6 hA⟩
  · obtain ⟨scores, s1, s2, s3, s4⟩ := h7 hA
    exact .inr ⟨hA, scores, by simpa using s1, s2, by simpa using s3, by rw [List.length_map]; exact s4⟩

/-- Context scores are not negative. -/
theorem context_nonneg {vm : Vm} {x : TextExt} {rules : List ContextRule} (hpos : ∀ r ∈ rules, 0 ≤ r.score)
    {l : List (Part VariantResult)} {y : Rat} (h : ComputedContext vm x rules l y) : 0 ≤ y := by
  obtain ⟨A, _, ⟨_, rfl⟩ | ⟨_, scores, s1, s2, s3, rfl⟩⟩ := h
  · exact zero_le_one
  · have hall : ∀ z ∈ scores, 0 ≤ z := by
      intro z hz
      obtain ⟨i, hi⟩ := List.mem_iff_getElem?.mp hz
      have hlt : i < l.length := s1 ▸ (List.getElem?_eq_some_iff.mp hi).1
      by_cases hm : ∃ a ∈ A, Marked rules a i
      · obtain ⟨a, ha, hmark⟩ := hm
        obtain ⟨rule, hr, _⟩ := id hmark
        have := s2 a ha rule hr i hmark
        rw [hi] at this
        cases this
        exact hpos rule (List.mem_of_getElem? hr)
      · have := s3 i hlt fun a ha hm' => hm ⟨a, ha, hm'⟩
        rw [hi] at this
        cases this
        exact zero_le_one
    exact rnd_nonneg _ (div_nonneg (summed_nonneg x.f32 hall) (by positivity))

/-- **C122**: if no pair of tokens was counted more often than its first token, and the rules have no negative score,
no figure is negative. -/
theorem plausible_figures {vm : Vm} {x : TextExt} {cfg : TextConfig} {p : TextParams} {τ : Rat}
    (hln : ∀ a, 0 < a → a ≤ 1 → x.ln32 a ≤ 0) (hd : Plausible vm) (hpos : ∀ r ∈ cfg.contextRules, 0 ≤ r.score)
    {o : Nat} {g : List Seg} {n : Nat} {rs : List (List (Part VariantResult) × Figures)}
    (h : LeastReadings (weighingOf vm x τ cfg p) o g n rs) : NoneNegative rs := by
  intro r hr
  obtain ⟨h1, _, h3⟩ := h.figures r hr
  refine ⟨nonnegative_iff.mp ?_, context_nonneg hpos h3⟩
  split at h1
  · obtain ⟨_, _, _, _, e⟩ := h1
    rw [e]
    exact mean_nonneg (count := fun l => (NGram.fromList l).bind vm.ngrams.get?) hln hd _
  · rw [h1]
    exact .inr (.inr ⟨0, le_refl _, rfl⟩)

theorem context_computed_none (vm : Vm) (x : TextExt) (l : List (Part VariantResult)) :
    ComputedContext vm x [] l 1 :=
  ⟨[], greedy_nil _, .inl ⟨rfl, rfl⟩⟩

/-- What is computed for a candidate sequence. -/
def figuresOf (s : Seqn) : Figures := ⟨s.perplexity, s.variantCost, s.contextScore⟩

/-- What a candidate sequence says of its reading. -/
theorem sequence_figures {alphabet : Alphabet} {ops : List Op} {vm : Vm} {x : TextExt}
    {cfg : TextConfig} {p : TextParams} (h : (Vm.new alphabet).run ops = .ok vm)
    (hlm : vm.haveLm = true → 0 < p.lmWeight →
      ∀ v ∈ vm.decoder, ∀ ws, TokensOf v.text ws → ws.length ≤ 255)
    (hok : ∀ r ∈ cfg.contextRules, RuleOk r)
    {all bs : List Match} {syms : List OutputSymbol} {path : FstPath} {s : Seqn}
    (hs : vm.sequenceOf x cfg p bs syms path = .ok s)
    (hfit : ∀ o ∈ s.outputSymbols, SymbolFits all bs o)
    (hid : ∀ o ∈ s.outputSymbols, o.vocabId < vm.decoder.length) :
    (if (vm.haveLm && decide (0 < p.lmWeight)) = true then
      ComputedPerplexity vm x (s.outputSymbols.map (partOf all bs)) s.perplexity
      else s.perplexity = .fin 0) ∧
    ComputedContext vm x cfg.contextRules (s.outputSymbols.map (partOf all bs)) s.contextScore := by
  obtain ⟨hs1, hs2⟩ := sequenceOf_symbols hs
  unfold Vm.sequenceOf at hs
  rw [hs1] at hs
  obtain ⟨os, ho, hs⟩ := bind_ok.mp hs
  cases ho
  have rest : ∀ pp : EFloat, (if cfg.contextRules.isEmpty = true then
      (pure { outputSymbols := s.outputSymbols, variantCost := path.weight, perplexity := pp, contextScore := 1, tags := [] } : Res Seqn)
      else do
        let r ← vm.testContextRules x cfg.contextRules s.outputSymbols
        pure { outputSymbols := s.outputSymbols, variantCost := path.weight, perplexity := pp, contextScore := r.1, tags := tagsOf r.2 }) =
      .ok s → s.perplexity = pp ∧
        ComputedContext vm x cfg.contextRules (s.outputSymbols.map (partOf all bs)) s.contextScore := by
    intro pp h
    split at h
    · next hc =>
      have hr : cfg.contextRules = [] := by simpa using hc
      have := pure_ok.mp h
      refine ⟨by rw [← this], ?_⟩
      have e : s.contextScore = 1 := by rw [← this]
      rw [hr, e]
      exact context_computed_none vm x _
    · obtain ⟨r, h1, h2⟩ := bind_ok.mp h
      have := pure_ok.mp h2
      refine ⟨by rw [← this], ?_⟩
      have e : s.contextScore = r.1 := by rw [← this]
      rw [e]
      exact context_computed hok hfit h1
  dsimp only at hs
  split at hs
  · next hc =>
    obtain ⟨y, h1, hs⟩ := bind_ok.mp hs
    obtain ⟨r1, r2⟩ := rest _ hs
    rw [if_pos (by simpa using hc), r1]
    exact ⟨perplexity_computed h (hlm hc.1 hc.2) hfit hid h1, r2⟩
  · next hc =>
    obtain ⟨r1, r2⟩ := rest _ hs
    rw [if_neg (by simpa using hc), r1]
    exact ⟨rfl, r2⟩

theorem computedOverall_eq (vm : Vm) (x : TextExt) (cfg : TextConfig) (p : TextParams) (pp : EFloat) (c m : Rat)
    (s : Seqn) : computedOverall vm x cfg p ⟨pp, c, m⟩ (figuresOf s) = vm.combinedScore x cfg p pp c m s := by
  have e : ((vm.haveLm = true ∧ p.lmWeight ≠ 0) ∨ (cfg.contextRules ≠ [] ∧ p.contextrulesWeight ≠ 0)) ↔
      ¬ (((!vm.haveLm) = true ∨ p.lmWeight = 0) ∧ (cfg.contextRules.isEmpty = true ∨ p.contextrulesWeight = 0)) := by
    cases vm.haveLm <;> cases cfg.contextRules <;> simp
    all_goals tauto
  unfold computedOverall Vm.combinedScore figuresOf
  dsimp only
  by_cases h : ((!vm.haveLm) = true ∨ p.lmWeight = 0) ∧ (cfg.contextRules.isEmpty = true ∨ p.contextrulesWeight = 0)
  · rw [if_pos h, if_neg (by rw [e]; exact not_not.mpr h)]
  · rw [if_neg h, if_pos (e.mpr h)]

/-- All scores are at the bottom if the least cost is 0. -/
theorem combined_zero {vm : Vm} {x : TextExt} {cfg : TextConfig} {p : TextParams}
    (hwl : 0 ≤ p.lmWeight) (hwv : 0 ≤ p.variantmodelWeight) (hwc : 0 ≤ p.contextrulesWeight)
    (pp : EFloat) (m : Rat) (b : Seqn) : Bottom (vm.combinedScore x cfg p pp 0 m b) := by
  have h : Bottom (.log x.ln64 (.div x.f64 false (.fin 0) (.fin b.variantCost))) := by
    by_cases h0 : b.variantCost = 0
    · right
      simp [EFloat.div, EFloat.divZero, EFloat.log, h0]
    · left
      simp [EFloat.div, EFloat.log, h0, x.f64.zero]
  have hD : 0 ≤ x.f64.rnd (x.f64.rnd (p.lmWeight + p.variantmodelWeight) + p.contextrulesWeight) :=
    rnd_nonneg _ (add_nonneg (rnd_nonneg _ (add_nonneg hwl hwv)) hwc)
  unfold Vm.combinedScore
  dsimp only
  split
  · exact h
  · exact Bottom.div _ (Bottom.add_left _ (Bottom.add_right _ (Bottom.scale _ h hwv))) hD

/-! ## Batches -/

/-- What floating point arithmetic is expected to do here; the solver tolerates an error of `τ`. -/
structure SoundFloats (x : TextExt) (fw τ : Rat) : Prop where
  close : ∀ y, |x.f32.rnd y - y| ≤ 1 / 1000 * max 1 |y|
  close64 : ∀ y, |x.f64.rnd y - y| ≤ 1 / 1000 * max 1 |y|
  weight : x.f64.rnd fw = fw
  ln64 : ∀ a b, 0 < a → a ≤ b → x.ln64 a ≤ x.ln64 b
  solver : SolverLeast x.f32 τ x.solve

/-- The sequence that is selected is not beaten. -/
theorem choice_unbeaten {vm : Vm} {x : TextExt} {cfg : TextConfig} {p : TextParams} {τ : Rat}
    (hln : ∀ a b, 0 < a → a ≤ b → x.ln64 a ≤ x.ln64 b)
    (hwl : 0 ≤ p.lmWeight) (hwv : 0 ≤ p.variantmodelWeight) (hwc : 0 ≤ p.contextrulesWeight)
    {part : Seqn → List (Part VariantResult)} {seqs : List Seqn} {o : Nat} {g : List Seg} {n : Nat} {b : Seqn × EFloat} (h5 : seqs ≠ [])
    (h6 : selectBest (vm.combinedScore x cfg p (bestPerplexity seqs)
      (bestCost x.f32 g.length seqs) (bestContext seqs)) seqs none = some b)
    (hcost : ∀ s ∈ seqs, 0 ≤ s.variantCost)
    (hp : g.length = 1 → ∀ s ∈ seqs.head?, ∀ s' ∈ seqs, s.variantCost ≤ s'.variantCost)
    (hcheap : LeastReadings (weighingOf vm x τ cfg p) o g n (seqs.map fun s => (part s, figuresOf s))) :
    b.1 ∈ seqs ∧ Unbeaten (weighingOf vm x τ cfg p) n o g (part b.1) := by
  obtain ⟨y1, y2, y3, y4⟩ := bestPerplexity_computed seqs
  have c1 := bestCost_least x.f32 g.length seqs
  have m1 := bestContext_greatest seqs
  have hc0 : 0 ≤ bestCost x.f32 g.length seqs := by
    rcases c1.1 with e | ⟨t, ht, e⟩
    · rw [e]
      exact rnd_nonneg _ (mul_nonneg (rnd_nonneg _ (by positivity)) (by norm_num))
    · rw [e]
      exact hcost t ht
  obtain ⟨s, l, hseqs⟩ := List.exists_cons_of_ne_nil h5
  obtain ⟨b, l1, l2, b1, b2, b3, b4, b5⟩ := selectBest_beats (vm.combinedScore x cfg p (bestPerplexity seqs)
      (bestCost x.f32 g.length seqs) (bestContext seqs)) s l
  rw [← hseqs] at b1 b2 b5
  rw [b1] at h6
  cases h6
  have hb : b ∈ seqs := by rw [b2]; simp
  have hsub : ∀ s ∈ l1 ++ l2, s ∈ seqs := by
    intro s hs
    rw [b2]
    simp only [List.mem_append, List.mem_cons] at hs ⊢
    tauto
  let best : Figures := ⟨bestPerplexity seqs, bestCost x.f32 g.length seqs, bestContext seqs⟩
  have hov : ∀ s, (weighingOf vm x τ cfg p).overall best (figuresOf s) = vm.combinedScore x cfg p
      (bestPerplexity seqs) (bestCost x.f32 g.length seqs) (bestContext seqs) s :=
    fun s => computedOverall_eq vm x cfg p _ _ _ s
  let fig : Seqn → List (Part VariantResult) × Figures := fun s => (part s, figuresOf s)
  have hrs : seqs.map fig = l1.map fig ++ fig b :: l2.map fig := by
    rw [b2, List.map_append, List.map_cons]
  have hdom : NoneNegative (l1.map fig ++ fig b :: l2.map fig) → ∀ s ∈ seqs, AsGood (figuresOf s) (figuresOf b) →
      ¬ Bottom (vm.combinedScore x cfg p (bestPerplexity seqs) (bestCost x.f32 g.length seqs) (bestContext seqs) b) →
      vm.combinedScore x cfg p (bestPerplexity seqs) (bestCost x.f32 g.length seqs) (bestContext seqs) s ≠ .nan ∧
      (vm.combinedScore x cfg p (bestPerplexity seqs) (bestCost x.f32 g.length seqs) (bestContext seqs) b).gt
        (vm.combinedScore x cfg p (bestPerplexity seqs) (bestCost x.f32 g.length seqs) (bestContext seqs) s) = false := by
    intro hnone s hs ha hbot
    rw [← hrs] at hnone
    have hmer : ∀ s ∈ seqs, Nonnegative s.perplexity ∧ 0 ≤ s.contextScore := fun s hs =>
      have := hnone _ (List.mem_map_of_mem hs)
      ⟨nonnegative_iff.mpr this.1, this.2⟩
    obtain ⟨y, e, hy⟩ : ∃ y, bestPerplexity seqs = .fin y ∧ 0 ≤ y := by
      have h0 : Nonnegative (bestPerplexity seqs) := by
        rcases y1 with e | ⟨s, hs, e⟩
        · exact .inr (.inr ⟨_, by norm_num, e⟩)
        · rw [e]
          exact (hmer s hs).1
      rcases h0 with h0 | h0 | ⟨y, hy, h0⟩
      · exact absurd h0 y2
      · rw [h0] at y3
        cases y3
      · exact ⟨y, h0, hy⟩
    rw [e] at hbot y4 ⊢
    exact combined_mono (vm := vm) (cfg := cfg) hln hwl hwv hwc hy hc0
      ⟨(hmer s hs).1, y4 s hs ha.perplexity.1, c1.2 (.inr ⟨s, hs, rfl⟩)⟩
      ⟨(hmer b hb).1, y4 b hb, c1.2 (.inr ⟨b, hb, rfl⟩), (hmer b hb).2, m1.2 (.inr ⟨b, hb, rfl⟩)⟩
      ha.perplexity ha.cost ha.context hbot
  refine ⟨hb, l1.map fig, figuresOf b, l2.map fig, best, ?_, ?_, ?_, ?_, ?_, ?_⟩
  · have := hcheap
    rw [show (seqs.map fun s => (part s, figuresOf s)) = _ from hrs] at this
    exact this
  · have e : l1.map fig ++ (part b, figuresOf b) :: l2.map fig = seqs.map fig := hrs.symm
    rw [e]
    refine ⟨⟨?_, ?_, ?_, ?_⟩, ?_, ?_⟩
    · rcases y1 with e | ⟨s, hs, e⟩
      · exact .inl e
      · exact .inr ⟨fig s, List.mem_map_of_mem hs, e⟩
    · exact y2
    · exact y3
    · intro r hr hn
      obtain ⟨s, hs, rfl⟩ := List.mem_map.mp hr
      exact y4 s hs hn
    · have e : {y | y = x.f32.rnd (x.f32.rnd (g.length - 1 : Nat) * 2) ∨ ∃ r ∈ seqs.map fig, y = r.2.cost} =
          {y | y = x.f32.rnd (x.f32.rnd (g.length - 1 : Nat) * 2) ∨ ∃ s ∈ seqs, y = s.variantCost} := by
        ext y
        simp only [Set.mem_setOf_eq, List.mem_map, exists_exists_and_eq_and]
        exact Iff.rfl
      show IsLeast {y | y = x.f32.rnd (x.f32.rnd (g.length - 1 : Nat) * 2) ∨ ∃ r ∈ seqs.map fig, y = r.2.cost} _
      rw [e]
      exact c1
    · have e : {y | y = 0 ∨ ∃ r ∈ seqs.map fig, y = r.2.context} =
          {y | y = 0 ∨ ∃ s ∈ seqs, y = s.contextScore} := by
        ext y
        simp only [Set.mem_setOf_eq, List.mem_map, exists_exists_and_eq_and]
        exact Iff.rfl
      rw [e]
      exact m1
  · intro r hr
    rw [← List.map_append] at hr
    obtain ⟨s, hs, rfl⟩ := List.mem_map.mp hr
    show ((weighingOf vm x τ cfg p).overall best (figuresOf s)).gt
      ((weighingOf vm x τ cfg p).overall best (figuresOf b)) = false
    rw [hov, hov]
    exact b5 s (hsub s hs)
  · intro hnone r hr ha
    obtain ⟨s, hs, rfl⟩ := List.mem_map.mp hr
    obtain ⟨k1, k2⟩ := hdom hnone s (hsub s (by simp [hs])) ha (b3 (List.ne_nil_of_mem hs))
    have := b4 s hs k1
    rw [k2] at this
    cases this
  · intro hnone r hr ha
    obtain ⟨s, hs, rfl⟩ := List.mem_map.mp hr
    show (weighingOf vm x τ cfg p).overall best (figuresOf s) =
        (weighingOf vm x τ cfg p).overall best (figuresOf b) ∨
      (weighingOf vm x τ cfg p).overall best (figuresOf b) = .nan ∨
      (weighingOf vm x τ cfg p).overall best (figuresOf s) = .nan ∧
        (weighingOf vm x τ cfg p).overall best (figuresOf b) = .negInf
    rw [hov, hov]
    have k0 := b5 s (hsub s (by simp [hs]))
    have k3 := hdom hnone s (hsub s (by simp [hs])) ha
    revert k0 k3
    generalize vm.combinedScore x cfg p (bestPerplexity seqs) (bestCost x.f32 g.length seqs) (bestContext seqs) s = u
    generalize vm.combinedScore x cfg p (bestPerplexity seqs) (bestCost x.f32 g.length seqs) (bestContext seqs) b = v
    cases u <;> cases v <;> simp [EFloat.gt, Bottom]
    intro h1 h2
    exact le_antisymm h1 h2
  · intro hg1 r hr
    rw [← List.map_append] at hr
    obtain ⟨s', hs', rfl⟩ := List.mem_map.mp hr
    have hbest : bestCost x.f32 g.length seqs = 0 := by
      refine le_antisymm (c1.2 (.inl ?_)) hc0
      rw [hg1]
      simp [x.f32.zero]
    have hl1 : l1 = [] := by
      by_contra hne
      refine b3 hne ?_
      rw [hbest]
      exact combined_zero hwl hwv hwc _ _ b
    refine hp hg1 b ?_ s' (hsub s' hs')
    rw [b2, hl1]
    simp

/-- The reading of a batch. -/
theorem batch_weighs {alphabet : Alphabet} {ops : List Op} {vm : Vm} {x : TextExt}
    {cfg : TextConfig} {p : TextParams} {τ : Rat} (hrun : (Vm.new alphabet).run ops = .ok vm)
    (hx : SoundFloats x p.variant.freqWeight τ)
    (hlm : vm.haveLm = true → 0 < p.lmWeight →
      ∀ v ∈ vm.decoder, ∀ ws, TokensOf v.text ws → ws.length ≤ 255)
    (hok : ∀ r ∈ cfg.contextRules, RuleOk r)
    (hwl : 0 ≤ p.lmWeight) (hwv : 0 ≤ p.variantmodelWeight) (hwc : 0 ≤ p.contextrulesWeight)
    (hsp : x.isAlpha ' ' = false)
    (hwt : WeightsOk x.f64 cfg.weights) (hconf : MildConfusables x.f64 cfg.confusables)
    (hlinks : ∀ v ∈ vm.decoder, ∀ t s, VariantReference.variantOf t s ∈ v.variants.getD [] →
      0 ≤ s ∧ s ≤ 1) (hfw : 0 ≤ p.variant.freqWeight) (hn : 1 ≤ p.maxNgram)
    (hmode : 1 < p.maxNgram ∨ vm.haveLm = true ∨ cfg.contextRules ≠ [])
    {pre post : List Char} {g : List Seg} (hg : IsBatch x.isAlpha g)
    {ms : List Match}
    (h : vm.batchMatches x cfg p (pre ++ flat g ++ post) (boundariesFrom (byteLen pre) g)
      (byteLen pre) (byteLen pre + byteLen (stretch g)) = .ok ms) :
    ∃ l, Unbeaten (weighingOf vm x τ cfg p) p.maxSeq (byteLen pre) g l ∧
      List.Forall₂ (ShowsPart vm x cfg p) l ms := by
  unfold Vm.batchMatches at h
  obtain ⟨all, h1, h⟩ := bind_ok.mp h
  rw [if_pos (by simpa using hmode)] at h
  obtain ⟨g1, g2⟩ := gathered_matches hsp hg h1
  have hall : Stretches (VariantsOf vm x cfg p) p.maxNgram (byteLen pre) g all := ⟨g1, g2⟩
  have hplace := gatherSegments_places hsp hg _ _ _ _ (Nat.le_refl 1) h1 .nil (by simp)
  generalize byteLen pre = o at *
  have hspan : ∀ m ∈ all, ∃ s e, Span o g s e m := by
    intro m hm
    obtain ⟨a, r, b, f1, _, f3, v, rfl, _⟩ := g1 m hm
    have hs := span_of_run (o := o) f1 f3
    exact ⟨_, _, hs.lt, hs.le, hs.text, hs.first, hs.last, hs.ne, hs.n⟩
  have hvar : ∀ m ∈ all, ∀ vs, m.variants = some vs →
      vm.findVariants x.toExt cfg.toConfig p.variant m.text = .ok vs := by
    intro m hm vs hvs
    obtain ⟨a, r, b, _, _, _, v, rfl, f4⟩ := g1 m hm
    rcases f4 with ⟨vs', rfl, f5, _⟩ | ⟨rfl, _⟩
    · cases hvs
      exact f5
    · cases hvs
  have hsc : ∀ m ∈ all, ∀ vs, m.variants = some vs → ∀ v ∈ vs,
      v.score x.f64 p.variant.freqWeight ≤ 191 / 100 := fun m hm vs hvs v hv =>
    (variant_scores_le hx.close64 (le_refl _) hx.weight hwt hconf hlinks hfw _ _ (hvar m hm vs hvs) v hv).2
  obtain ⟨a, w, s, b, f1, f2⟩ := IsBatch_word hg
  obtain ⟨vs, _, hm⟩ := g2 a [(w, s)] b f1 (by simp; omega) f2 (.inl rfl)
  have hws := span_of_run (o := o) (r := [(w, s)]) f1 f2
  have hword : ∃ m ∈ all, ∃ s v, Span o g s (s + 1) m ∧ m.variants = some v :=
    ⟨_, hm, a.length, vs, ⟨hws.lt, hws.le, hws.text, hws.first, hws.last, hws.ne, hws.n⟩, rfl⟩
  have hids : ∀ m ∈ all, ∀ vs, m.variants = some vs → ∀ v ∈ vs, v.vocabId < vm.decoder.length :=
    fun m hm vs hvs => find_variants_ids hwt.sum.ne' (hvar m hm vs hvs)
  obtain ⟨syms, trs, seqs, best, h1, h2, h3, h4, h5, h6, h7⟩ := mostLikelySequence_best hg hspan hword h
  have hlab : Labels all.length syms trs := by
    have h1' := h1
    rw [← boundariesFrom_length o g] at h1'
    exact buildFst_labels h1'
  obtain ⟨tss, t1, t2, t3, t4, t5, t6⟩ := hx.solver
    { states := g.length + 1, finals := [g.length], trs := trs ++ epsilonTrs g.length } p.maxSeq
  have hnod : tss.Nodup := t3 (trs_nodup hlab fun t ht => by obtain ⟨_, _, h, _⟩ := h2 t ht; exact h)
  have hfwd : Forward { states := g.length + 1, finals := [g.length], trs := trs ++ epsilonTrs g.length } :=
    forward_of_ok h2 _ _
  have hwalk : ∀ ts ∈ tss, Walk (trs ++ epsilonTrs g.length) 0 ts g.length := by
    intro ts hts
    obtain ⟨q, hq, hw⟩ := t2 ts hts
    rw [List.mem_singleton] at hq
    exact hq ▸ hw
  have hcosts : ∀ t ∈ trs ++ epsilonTrs g.length, 0 ≤ t.cost := by
    intro t ht
    rcases List.mem_append.mp ht with ht | ht
    · obtain ⟨sym, m, _, _, a3, a4, _, a6⟩ := h2 t ht
      have hlt := a4.lt
      rcases a6 with ⟨vi, vs, v, _, c2, c3, _, c5⟩ | ⟨_, _, _, _, c5⟩
      · rw [c5]
        exact le_trans (by norm_num) (arc_pos hx.close (le_refl _)
          (hsc m (List.mem_of_getElem? a3) vs c2 v (List.mem_of_getElem? c3)) (n := _) (by omega))
      · rw [c5]
        refine rnd_nonneg _ (add_nonneg (rnd_nonneg _ (by norm_num)) zero_le_one)
    · unfold epsilonTrs at ht
      obtain ⟨j, _, rfl⟩ := List.mem_map.mp ht
      show (0 : Rat) ≤ 100
      norm_num
  have hf := sequencesOf_ok.mp h4
  rw [t1, List.forall₂_map_left_iff] at hf
  have hpair : ∀ s ∈ seqs, ∃ ts ∈ tss, lookupSymbols syms (outputs ts) = .ok s.outputSymbols ∧
      s.variantCost = added x.f32 (ts.map Tr.cost) ∧ vm.sequenceOf x cfg p (boundariesFrom o g) syms
        { weight := added x.f32 (ts.map Tr.cost), olabels := outputs ts } = .ok s := by
    intro s hs
    obtain ⟨ts, hts, h8⟩ := mem_of_forall₂_right hf hs
    exact ⟨ts, hts, (sequenceOf_symbols h8).1, (sequenceOf_symbols h8).2, h8⟩
  have h0 : 0 < vm.decoder.length := by
    have := (inv_run (inv_new alphabet) hrun).1.bos
    unfold textAt at this
    obtain ⟨v, hv, _⟩ := Option.map_eq_some_iff.mp this
    exact (List.getElem?_eq_some_iff.mp hv).1
  have hidS : ∀ s ∈ seqs, ∀ o ∈ s.outputSymbols, o.vocabId < vm.decoder.length := by
    intro s hs sym hsym
    obtain ⟨ts, hts, h8, _⟩ := hpair s hs
    rcases (walk_symbols h2 (hwalk ts hts) h8 sym hsym).2 with h | ⟨m, hm, vs, hv, v, hv', h⟩
    · rw [h]; exact h0
    · rw [h]; exact hids m hm vs hv v hv'
  have hcost : ∀ s ∈ seqs, 0 ≤ s.variantCost := by
    intro s hs
    obtain ⟨ts, hts, _, h9, _⟩ := hpair s hs
    rw [h9]
    refine added_nonneg _ ?_
    intro c hc
    obtain ⟨t, ht, rfl⟩ := List.mem_map.mp hc
    exact hcosts t (walk_mem (hwalk ts hts) t ht)
  have hmer : ∀ s ∈ seqs, (if (vm.haveLm && decide (0 < p.lmWeight)) = true then
      ComputedPerplexity vm x (s.outputSymbols.map (partOf all (boundariesFrom o g))) s.perplexity
      else s.perplexity = .fin 0) ∧
      ComputedContext vm x cfg.contextRules (s.outputSymbols.map (partOf all (boundariesFrom o g)))
        s.contextScore := by
    intro s hs
    obtain ⟨ts, hts, h8, h9, h10⟩ := hpair s hs
    exact sequence_figures hrun hlm hok h10 (walk_fits h2 (hwalk ts hts) h8) (hidS s hs)
  let rs := seqs.map fun s => (s.outputSymbols.map (partOf all (boundariesFrom o g)), figuresOf s)
  have hcheap : LeastReadings (weighingOf vm x τ cfg p) o g p.maxSeq rs := by
    refine ⟨?_, ?_, ?_, ?_⟩
    · intro r hr
      obtain ⟨s, hs, rfl⟩ := List.mem_map.mp hr
      obtain ⟨ts, hts, h8, h9, h10⟩ := hpair s hs
      obtain ⟨m1, m2⟩ := hmer s hs
      refine ⟨m1, ⟨ts.map Tr.cost, ?_, h9⟩, m2⟩
      obtain ⟨os, k1, k2⟩ := walk_priced hg hall h2 ts 0 (hwalk ts hts)
      rw [h8] at k1
      cases k1
      show Priced x.f32 (VariantsOf vm x cfg p) VariantResult.distScore
        (VariantResult.score x.f64 p.variant.freqWeight) p.maxNgram _ _ _ _
      simpa [flat, byteLen] using k2
    · have : rs.map Prod.fst = seqs.map fun s => s.outputSymbols.map (partOf all (boundariesFrom o g)) := by
        rw [List.map_map]; rfl
      rw [this]
      refine forall₂_nodup hf hnod ?_
      intro ts hts ts' hts' s s' hs hs' he
      exact walk_parts hg hall hplace h2 hlab (hwalk ts hts) (hwalk ts' hts') (sequenceOf_symbols hs).1
        (sequenceOf_symbols hs').1 he
    · rw [List.length_map, ← hf.length_eq]
      exact t4
    · intro l c hl hne
      obtain ⟨ts, os, w1, w2, w3, w4⟩ := priced_walk
        (fun t a b ha hb => by rw [VariantsOf, ha] at hb; exact Except.ok.inj hb) hn hall h2 h3 hl (a := [])
        rfl (by simp [flat, byteLen])
      have hout : ts ∉ tss := by
        intro hts
        obtain ⟨s, hs, h8⟩ := mem_of_forall₂_left hf hts
        refine hne ?_
        rw [List.map_map, List.mem_map]
        refine ⟨s, hs, ?_⟩
        have := (sequenceOf_symbols h8).1
        rw [w3] at this
        cases this
        exact w4
      obtain ⟨k1, k2⟩ := t6 hfwd ts ⟨_, List.mem_singleton.mpr rfl, w1⟩ hout
      rw [List.length_map, ← hf.length_eq]
      refine ⟨k1, ?_⟩
      intro r hr
      obtain ⟨s, hs, rfl⟩ := List.mem_map.mp hr
      obtain ⟨ts', hts', _, h9, _⟩ := hpair s hs
      have := k2 ts' hts'
      rw [w2] at this
      exact h9.trans_le this
  have hshow : ∀ s ∈ seqs, resultMatches all s.tags 0 s.outputSymbols = .ok ms →
      List.Forall₂ (ShowsPart vm x cfg p) (s.outputSymbols.map (partOf all (boundariesFrom o g))) ms := by
    intro s hs hres
    obtain ⟨ts, hts, h8, _⟩ := hpair s hs
    exact results_show hres (walk_shows hg hall h2 (hwalk ts hts) h8)
  have hp : g.length = 1 → ∀ s ∈ seqs.head?, ∀ s' ∈ seqs, s.variantCost ≤ s'.variantCost := by
    intro h1 s hs s' hs'
    obtain ⟨ts, e1, e2⟩ := head_of_forall₂ hf hs
    obtain ⟨ts', e3, e4⟩ := mem_of_forall₂_right hf hs'
    rw [(sequenceOf_symbols e2).2, (sequenceOf_symbols e4).2]
    exact t5 (by simp [h1]) ts e1 ts' e3
  obtain ⟨hb, hu⟩ := choice_unbeaten hx.ln64 hwl hwv hwc (part := fun s =>
    s.outputSymbols.map (partOf all (boundariesFrom o g))) h5 h6 hcost hp hcheap
  exact ⟨_, hu, hshow _ hb h7⟩

/-! ## Texts -/

/-- **C122**: in floating point, with language model and context rules, a search in text reads each batch of words
as one of its `maxSeq` cheapest readings.  None of these has a higher overall score; if no perplexity and no context
score is negative, and one is as good in all respects, both have the same overall score and it comes later.  A batch of one
word is read as cheaply as possible.  Costs, perplexities, context scores and overall scores are those that are
computed.  The matches show the stretches of the reading, with the variants of their text, and have the tags that
the rules give to the chosen entries.  (Any monotone rounding with a relative error of 0.001 at most; a solver
that returns the paths with the least sums, in any order.) -/
theorem search_weighs {alphabet : Alphabet} {ops : List Op} {vm : Vm} {x : TextExt}
    {cfg : TextConfig} {p : TextParams} {τ : Rat} (hrun : (Vm.new alphabet).run ops = .ok vm)
    (hx : SoundFloats x p.variant.freqWeight τ)
    (hlm : vm.haveLm = true → 0 < p.lmWeight →
      ∀ v ∈ vm.decoder, ∀ ws, TokensOf v.text ws → ws.length ≤ 255)
    (hok : ∀ r ∈ cfg.contextRules, RuleOk r)
    (hwl : 0 ≤ p.lmWeight) (hwv : 0 ≤ p.variantmodelWeight) (hwc : 0 ≤ p.contextrulesWeight)
    (hsp : x.isAlpha ' ' = false)
    (hwt : WeightsOk x.f64 cfg.weights) (hconf : MildConfusables x.f64 cfg.confusables)
    (hlinks : ∀ v ∈ vm.decoder, ∀ t s, VariantReference.variantOf t s ∈ v.variants.getD [] →
      0 ≤ s ∧ s ≤ 1) (hfw : 0 ≤ p.variant.freqWeight) (hn : 1 ≤ p.maxNgram)
    (hmode : 1 < p.maxNgram ∨ vm.haveLm = true ∨ cfg.contextRules ≠ [])
    (hu : p.unicodeoffsets = false) (hi : vm.index.isEmpty = false)
    {text : List Char} {segs : List Seg} {ms : List Match} (hs : Segmented x.isAlpha text segs)
    (h : vm.findAllMatches x cfg p text = .ok ms) :
    ∃ ls mss, List.Forall₂ (fun b l => Unbeaten (weighingOf vm x τ cfg p) p.maxSeq b.1 b.2 l)
        (placed 0 (batches [] segs)) ls ∧
      List.Forall₂ (fun l out => List.Forall₂ (ShowsPart vm x cfg p) l out ∧
        Tagged vm cfg.contextRules out) ls mss ∧
      ms = mss.flatten := by
  have hbatch : ∀ (gs : List (List Seg)) (pre post : List Char) (out : List Match),
      (∀ g ∈ gs, IsBatch x.isAlpha g) →
      Vm.batchesRun vm x cfg p (pre ++ flat gs.flatten ++ post) (byteLen pre) gs = .ok out →
      ∃ ls mss, List.Forall₂ (fun b l => Unbeaten (weighingOf vm x τ cfg p) p.maxSeq b.1 b.2 l) (placed (byteLen pre) gs) ls ∧
        List.Forall₂ (fun l out => List.Forall₂ (ShowsPart vm x cfg p) l out ∧
          Tagged vm cfg.contextRules out) ls mss ∧
        out = mss.flatten := by
    intro gs
    induction gs with
    | nil =>
      intro pre post out _ hout
      cases hout
      exact ⟨[], [], .nil, .nil, rfl⟩
    | cons g gs ih =>
      intro pre post out hg hout
      rw [List.flatten_cons, flat_append, Vm.batchesRun] at hout
      obtain ⟨a, h1, hout⟩ := bind_ok.mp hout
      obtain ⟨b, h2, hout⟩ := bind_ok.mp hout
      have := pure_ok.mp hout
      subst this
      have e1 : pre ++ (flat g ++ flat gs.flatten) ++ post =
          pre ++ flat g ++ (flat gs.flatten ++ post) := by simp
      have e2 : pre ++ (flat g ++ flat gs.flatten) ++ post =
          (pre ++ flat g) ++ flat gs.flatten ++ post := by simp
      rw [e1] at h1
      rw [e2, ← byteLen_append] at h2
      have hgb := hg g (by simp)
      obtain ⟨l, c1, c2⟩ := batch_weighs hrun hx hlm hok hwl hwv hwc hsp hwt hconf hlinks hfw hn hmode
        hgb h1
      have c3 := batchMatches_tagged hsp hx.solver.ok hok hgb h1
      obtain ⟨ls, mss, c4, c5, c6⟩ := ih _ _ _ (fun g' h' => hg g' (by simp [h'])) h2
      rw [byteLen_append] at c4
      exact ⟨l :: ls, a :: mss, .cons c1 c4, .cons ⟨c2, c3⟩ c5, by rw [c6, List.flatten_cons]⟩
  by_cases hne : text = []
  · subst hne
    have hms : ms = [] := by
      rw [Vm.findAllMatches, if_pos rfl] at h
      exact (Except.ok.inj h).symm
    obtain ⟨hb, hf⟩ := batches_of hs
    have hb0 : batches [] segs = [] := by
      rcases hf with hf | hf
      · cases hbs : batches [] segs with
        | nil => rfl
        | cons g gs =>
          have hg := hb g (by simp [hbs])
          have ht := hs.text_eq
          rw [← hf, hbs, List.flatten_cons, flat_append, List.append_eq_nil_iff] at ht
          have := stretch_prefix_flat g
          rw [ht.1, List.prefix_nil] at this
          exact absurd this hg.word
      · exact hf.1
    rw [hms, hb0]
    exact ⟨[], [], .nil, .nil, rfl⟩
  rw [findAllMatches_eq vm x cfg p hne hi hs, hu] at h
  obtain ⟨ms', h1, h2⟩ := bind_ok.mp h
  have := pure_ok.mp h2
  subst this
  obtain ⟨hb, hf⟩ := batches_of hs
  rcases hf with hf | ⟨e1, s, e⟩
  · have := hbatch (batches [] segs) [] [] ms' hb
    simp only [List.nil_append, List.append_nil, hf, hs.text_eq] at this
    exact this h1
  · rw [e1] at h1 ⊢
    cases h1
    exact ⟨[], [], .nil, .nil, rfl⟩

/-- IEEE 754 arithmetic meets the expectations. -/
theorem ieee_sound {x : TextExt} (h32 : x.f32 = .binary32) (h64 : x.f64 = .binary64)
    (hln : ∀ a b, 0 < a → a ≤ b → x.ln64 a ≤ x.ln64 b) {τ : Rat}
    (hsolve : SolverLeast .binary32 τ x.solve) {fw : Rat} (hfw : x.f64.rnd fw = fw) : SoundFloats x fw τ where
  close y := by
    rw [h32]
    refine (binary32_close y).trans (mul_le_mul_of_nonneg_right ?_ (le_trans zero_le_one (le_max_left _ _)))
    norm_num
  close64 y := by
    rw [h64]
    refine (binary64_close y).trans (mul_le_mul_of_nonneg_right ?_ (le_trans zero_le_one (le_max_left _ _)))
    norm_num
  weight := hfw
  ln64 := hln
  solver := by rw [h32]; exact hsolve

/-! ## Examples -/

theorem exSound32 : SoundFloats exText32 exReadParams.variant.freqWeight 0 :=
  ieee_sound rfl rfl (by
    intro a b _ h
    show a - 1 ≤ b - 1
    linarith) (sumSolver_least _ (le_refl 0)) (by decide +kernel)

theorem pair_plausible : Plausible (pairVm 2) := by
  intro a b c hc
  obtain ⟨h1, d, h2, h3⟩ := pair_discounted a b c hc
  rw [h2]
  exact h3.le

/-- `aa b, b`, in IEEE 754 arithmetic: as with exact arithmetic, `aa` is read as `ab`, which is often followed by
`b`, although `a` is closer; each `b` is tagged. -/
example : ∃ ls mss, List.Forall₂ (fun b l => Unbeaten
      (weighingOf (pairVm 2) exText32 0 exReadConfig exReadParams) exReadParams.maxSeq b.1 b.2 l)
      [(0, [("aa".toList, " ".toList), ("b".toList, ", ".toList)]), (6, [("b".toList, [])])] ls ∧
    List.Forall₂ (fun l out => List.Forall₂ (ShowsPart (pairVm 2) exText32 exReadConfig exReadParams) l out ∧
      Tagged (pairVm 2) [exTagB] out) ls mss ∧
    mss.flatten.map (fun m => (m.text, m.first, m.tag, (chosenEntry (pairVm 2) m).1)) =
      [("aa".toList, 0, [], 5), ("b".toList, 3, [7], 4),
       ("b".toList, 6, [7], 4)] := by
  have hrun : (Vm.new exAlphabet).run (pairOps 2) = .ok (pairVm 2) := rfl
  have hex : ∃ ms, (pairVm 2).findAllMatches exText32 exReadConfig exReadParams "aa b, b".toList = .ok ms ∧
      ms.map (fun m => (m.text, m.first, m.tag, (chosenEntry (pairVm 2) m).1)) =
      [("aa".toList, 0, [], 5), ("b".toList, 3, [7], 4),
       ("b".toList, 6, [7], 4)] := by
    have h : ((pairVm 2).findAllMatches exText32 exReadConfig exReadParams "aa b, b".toList).toOption.map
        (·.map fun m => (m.text, m.first, m.tag, (chosenEntry (pairVm 2) m).1)) = some
      [("aa".toList, 0, [], 5), ("b".toList, 3, [7], 4),
       ("b".toList, 6, [7], 4)] := by decide +kernel
    obtain ⟨ms, h1, h2⟩ := Option.map_eq_some_iff.mp h
    refine ⟨ms, ?_, h2⟩
    generalize (pairVm 2).findAllMatches exText32 exReadConfig exReadParams "aa b, b".toList = r at h1
    cases r with
    | error e => cases h1
    | ok y => cases h1; rfl
  obtain ⟨ms, h1, h2⟩ := hex
  have := search_weighs (cfg := exReadConfig) hrun exSound32
    (fun _ _ v hv ws hws => by
      have := tokensOf_unique hws
      subst this
      have hall : ∀ v ∈ (pairVm 2).decoder, (splitSpaces v.text).length ≤ 255 := by decide +kernel
      exact hall v hv)
    (fun r hr => by
      have hr : r ∈ [exTagB] := hr
      rw [List.mem_singleton] at hr; subst hr; exact exTagB_ok)
    (by decide +kernel) (by decide +kernel) (by decide +kernel) (by decide +kernel) exWeights32
    (mild_nil _)
    (by
      have : ∀ v ∈ (pairVm 2).decoder, v.variants.getD [] = [] := by decide +kernel
      intro v hv t s h
      rw [this v hv] at h
      cases h) (by decide +kernel) (by decide) (.inl (by decide)) rfl
    (by decide +kernel) exRead_segs h1
  obtain ⟨ls, mss, c1, c2, c3⟩ := this
  refine ⟨ls, mss, ?_, c2, by rw [← c3]; exact h2⟩
  have e : placed 0 (batches [] [("aa".toList, " ".toList), ("b".toList, ", ".toList), ("b".toList, [])]) =
      [(0, [("aa".toList, " ".toList), ("b".toList, ", ".toList)]), (6, [("b".toList, [])])] := by
    decide +kernel
  rw [e] at c1
  exact c1

/-- No figure of a reading of `aa b` is negative. -/
example : ∀ rs, LeastReadings (weighingOf (pairVm 2) exText32 0 exReadConfig exReadParams) 0
      [("aa".toList, " ".toList), ("b".toList, ", ".toList)] exReadParams.maxSeq rs → NoneNegative rs := fun _ h =>
  plausible_figures (by
    intro a _ h
    show a - 1 ≤ 0
    linarith) pair_plausible (fun r hr => by
      have hr : r ∈ [exTagB] := hr
      rw [List.mem_singleton] at hr; subst hr; decide +kernel) h

/-- The words come from a lexicon, so the language model that is loaded later does not count them. -/
def overOps : List Op :=
  [.add "a".toList (some 4) { vocabType := .INDEXED }, .add "b".toList (some 1) { vocabType := .INDEXED },
   .add "ab".toList (some 3) { vocabType := .INDEXED }, .add "<bos> a".toList (some 9) { vocabType := .LM },
   .add "<bos> ab".toList (some 9) { vocabType := .LM }, .add "a b".toList (some 100) { vocabType := .LM },
   .add "ab b".toList (some 50) { vocabType := .LM }, .add "b <eos>".toList (some 9) { vocabType := .LM },
   .build exOrders]

def overVm : Vm := ((Vm.new exAlphabet).run overOps).toOption.getD (Vm.new [])

/-- **C122 fails for negative perplexities**: `a b` is counted twice as often as `ab b`, and `aa` is closer to `a`
than to `ab`.  As pairs are counted more often than words, the perplexities are negative; the less likely reading
`ab b` is chosen, and without the language model (last weight 0) the other.  (IEEE 754 arithmetic; the logarithm of this
example is y − 1.) -/
theorem frequent_pair_loses :
    [3, 4, 5].map (fun i => (overVm.decoder[i]?).map VocabValue.text) =
      [some "a".toList, some "b".toList, some "ab".toList] ∧
    [[0, 3], [0, 5], [3, 4], [5, 4], [4, 1]].map (fun l => (NGram.fromList l).bind overVm.ngrams.get?) =
      [some 9, some 9, some 100, some 50, some 9] ∧
    (overVm.findAllMatches exText32 exTextConfig { exTextParams with lmWeight := 1 }
      "aa b".toList).toOption.map (·.map fun m => (chosenEntry overVm m).1) = some [5, 4] ∧
    (overVm.findAllMatches exText32 exTextConfig { exTextParams with lmWeight := 0 }
      "aa b".toList).toOption.map (·.map fun m => (chosenEntry overVm m).1) = some [3, 4] := by
  decide +kernel

end Verif.Props
