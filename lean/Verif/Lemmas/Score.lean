import Verif.Spec.Score
import Verif.Lemmas.Gather
import Mathlib.Tactic.Linarith
import Mathlib.Tactic.Positivity
import Mathlib.Algebra.Order.Field.Basic

/-! # Scoring and ranking -/
namespace Verif.Lemmas

open Verif.Spec Verif.Model Verif.Props

/-! ## Rounding -/

theorem rnd_nonneg (r : Rounding) {x : Rat} (h : 0 ≤ x) : 0 ≤ r.rnd x := by
  have := r.mono 0 x h
  rwa [r.zero] at this

theorem rnd_le_one (r : Rounding) {x : Rat} (h : x ≤ 1) : r.rnd x ≤ 1 := by
  have := r.mono x 1 h
  rwa [r.one] at this

theorem rnd_le (r : Rounding) {x y : Rat} (h : x ≤ y) (hy : r.rnd y = y) : r.rnd x ≤ y := by
  have := r.mono x y h
  rwa [hy] at this

/-! ## The similarity score -/

theorem ratio_bounds (r : Rounding) {a len : Nat} (hlen : 0 < len) (h : a ≤ len) :
    0 ≤ r.rnd ((a : Rat) / len) ∧ r.rnd ((a : Rat) / len) ≤ 1 := by
  have hl : (0 : Rat) < len := by exact_mod_cast hlen
  refine ⟨rnd_nonneg r (by positivity), rnd_le_one r ?_⟩
  rw [div_le_one hl]
  exact_mod_cast h

theorem weighted_bounds (r : Rounding) {w x : Rat} (hw : 0 ≤ w ∧ r.rnd w = w) (hx : 0 ≤ x ∧ x ≤ 1) :
    0 ≤ r.rnd (w * x) ∧ r.rnd (w * x) ≤ w := by
  refine ⟨rnd_nonneg r (mul_nonneg hw.1 hx.1), rnd_le r ?_ hw.2⟩
  calc w * x ≤ w * 1 := mul_le_mul_of_nonneg_left hx.2 hw.1
    _ = w := mul_one w

theorem add_bounds (r : Rounding) {a b a' b' : Rat} (ha : 0 ≤ a ∧ a ≤ a') (hb : 0 ≤ b ∧ b ≤ b') :
    0 ≤ r.rnd (a + b) ∧ r.rnd (a + b) ≤ r.rnd (a' + b') :=
  ⟨rnd_nonneg r (add_nonneg ha.1 hb.1), r.mono _ _ (add_le_add ha.2 hb.2)⟩

theorem similarity_bounds (r : Rounding) {w : Weights} (hw : WeightsOk r w) {len : Nat}
    (hlen : 0 < len) {d : Distance} (h1 : d.lcs ≤ len) (h2 : d.prefixlen ≤ len)
    (h3 : d.suffixlen ≤ len) : 0 ≤ similarity r w len d ∧ similarity r w len d ≤ 1 := by
  have hd : 0 ≤ (if d.ld > len then (0 : Rat) else r.rnd (1 - r.rnd (d.ld / len))) ∧
      (if d.ld > len then (0 : Rat) else r.rnd (1 - r.rnd (d.ld / len))) ≤ 1 := by
    split
    · exact ⟨le_rfl, zero_le_one⟩
    · next h =>
      obtain ⟨a, b⟩ := ratio_bounds r hlen (not_lt.mp h)
      exact ⟨rnd_nonneg r (by linarith), rnd_le_one r (by linarith)⟩
  have hc : 0 ≤ (if d.samecase then w.case else 0) ∧ (if d.samecase then w.case else 0) ≤ w.case := by
    split
    · exact ⟨hw.case.1, le_rfl⟩
    · exact ⟨le_rfl, hw.case.1⟩
  have key := add_bounds r (add_bounds r (add_bounds r (add_bounds r (weighted_bounds r hw.ld hd)
    (weighted_bounds r hw.lcs (ratio_bounds r hlen h1)))
    (weighted_bounds r hw.pre (ratio_bounds r hlen h2)))
    (weighted_bounds r hw.suf (ratio_bounds r hlen h3))) hc
  have hs := hw.sum
  unfold similarity
  simp only
  refine ⟨rnd_nonneg r (div_nonneg key.1 hs.le), rnd_le_one r ?_⟩
  rw [div_le_one hs]
  exact key.2

/-- The record of an exact match. -/
def exactDistance (w : Weights) (len : Nat) : Distance :=
  { ld := 0, lcs := if w.lcs > 0 then len else 0, prefixlen := if w.pre > 0 then len else 0,
    suffixlen := if w.suf > 0 then len else 0, samecase := true }

theorem similarity_exact (r : Rounding) {w : Weights} (hw : WeightsOk r w) {len : Nat}
    (hlen : 0 < len) : similarity r w len (exactDistance w len) = 1 := by
  have hl : (len : Rat) ≠ 0 := by exact_mod_cast hlen.ne'
  have part : ∀ x : Rat, 0 ≤ x ∧ r.rnd x = x →
      r.rnd (x * r.rnd (((if x > 0 then len else 0 : Nat) : Rat) / len)) = x := by
    intro x hx
    split
    · rw [div_self hl, r.one, mul_one, hx.2]
    · next h =>
      have h0 : x = 0 := le_antisymm (not_lt.mp h) hx.1
      rw [h0, zero_mul, r.zero]
  have hs := hw.sum
  unfold similarity exactDistance
  simp only [part _ hw.lcs, part _ hw.pre, part _ hw.suf, if_true]
  rw [if_neg (by omega)]
  simp only [Nat.cast_zero, zero_div, r.zero, sub_zero, r.one, mul_one, hw.ld.2]
  change r.rnd (w.sum r / w.sum r) = 1
  rw [div_self hs.ne', r.one]

theorem gather_lengths (m : Vm) (isLower : Char → Bool) (w : Weights) (qs : List Nat)
    (query : List Char) (cap : Nat) (near : List Nat) (l : List (Nat × Distance))
    (h : m.gatherInstances isLower w qs query cap near = .ok l) :
    ∀ y ∈ l, y.2.lcs ≤ qs.length ∧ y.2.prefixlen ≤ qs.length ∧ y.2.suffixlen ≤ qs.length := by
  have hnode : ∀ (ids : List Nat) (l : List (Nat × Distance)),
      m.gatherNode isLower w qs query cap ids = .ok l → ∀ y ∈ l,
        y.2.lcs ≤ qs.length ∧ y.2.prefixlen ≤ qs.length ∧ y.2.suffixlen ≤ qs.length := by
    intro ids
    induction ids with
    | nil => intro l h; cases h; simp
    | cons id ids ih =>
      intro l h
      simp only [Vm.gatherNode] at h
      split at h
      · cases h
      · next v hv =>
        rw [bind_ok] at h
        obtain ⟨od, _, h⟩ := h
        cases od with
        | none => exact ih l h
        | some ld =>
          simp only [bind_ok, pure_ok] at h
          obtain ⟨x1, e1, x2, e2, x3, e3, sc, _, l', hl', rfl⟩ := h
          intro y hy
          rcases List.mem_cons.mp hy with rfl | hy
          · obtain ⟨b1, b2, b3, _⟩ := common_lengths_bounds qs v.norm
            obtain ⟨_, rfl⟩ := inU16_iff.mp e1
            obtain ⟨_, rfl⟩ := inU16_iff.mp e2
            obtain ⟨_, rfl⟩ := inU16_iff.mp e3
            simp only
            refine ⟨?_, ?_, ?_⟩ <;> split <;> omega
          · exact ih l' hl' y hy
  induction near generalizing l with
  | nil => cases h; simp
  | cons k near ih =>
    simp only [Vm.gatherInstances] at h
    split at h
    · cases h
    · simp only [bind_ok, pure_ok] at h
      obtain ⟨l1, h1, l2, h2, rfl⟩ := h
      intro y hy
      rcases List.mem_append.mp hy with hy | hy
      · exact hnode _ l1 h1 y hy
      · exact ih l2 h2 y hy

/-! ## The scoring loop -/

/-- what one candidate contributes -/
def scored (m : Vm) (r : Rounding) (w : Weights) (len : Nat) (threshold : Rat) (y : Nat × Distance) :
    Option VariantResult :=
  match m.decoder[y.1]? with
  | none => none
  | some item =>
    if similarity r w len y.2 ≥ threshold then
      some ⟨y.1, similarity r w len y.2, if m.haveFreq then r.rnd item.frequency else 1, none⟩
    else none

theorem scoreLoop_spec (m : Vm) (r : Rounding) (w : Weights) (hsum : w.sum r ≠ 0) (len : Nat)
    (threshold : Rat) (l : List (Nat × Distance)) (res : List VariantResult) (mf : Rat) (ex : Bool) :
    ∃ mf', m.scoreLoop r w len threshold l res mf ex =
        .ok (res ++ l.filterMap (scored m r w len threshold), mf',
          ex || l.any fun y => ((m.decoder[y.1]?).bind VocabValue.variants).isSome) ∧
      mf ≤ mf' ∧
      (∀ y ∈ l, ∀ item, m.decoder[y.1]? = some item →
        (if m.haveFreq then r.rnd item.frequency else 1) ≤ mf') ∧
      (mf' = mf ∨ ∃ y ∈ l, ∃ item, m.decoder[y.1]? = some item ∧
        mf' = if m.haveFreq then r.rnd item.frequency else 1) := by
  induction l generalizing res mf ex with
  | nil => exact ⟨mf, by simp [Vm.scoreLoop], le_rfl, by simp, .inl rfl⟩
  | cons y l ih =>
    obtain ⟨id, d⟩ := y
    simp only [Vm.scoreLoop]
    cases hv : m.decoder[id]? with
    | none =>
      obtain ⟨mf', h1, h2, h3, h4⟩ := ih res mf ex
      refine ⟨mf', ?_, h2, ?_, ?_⟩
      · simp only []
        rw [h1]
        simp [scored, hv]
      · intro y hy item hitem
        rcases List.mem_cons.mp hy with rfl | hy
        · rw [hv] at hitem; cases hitem
        · exact h3 y hy item hitem
      · rcases h4 with h4 | ⟨y, hy, h4⟩
        · exact .inl h4
        · exact .inr ⟨y, List.mem_cons_of_mem _ hy, h4⟩
    | some item =>
      simp only []
      generalize hf : (if m.haveFreq = true then r.rnd (item.frequency : Rat) else 1) = f
      rw [if_neg hsum]
      have hmf : mf ≤ (if f > mf then f else mf) ∧ f ≤ (if f > mf then f else mf) ∧
          ((if f > mf then f else mf) = mf ∨ (if f > mf then f else mf) = f) := by
        split
        · next h => exact ⟨h.le, le_rfl, .inr rfl⟩
        · next h => exact ⟨le_rfl, not_lt.mp h, .inl rfl⟩
      generalize (if f > mf then f else mf) = mf1 at hmf
      have fin : ∀ res', (res' = res ++ (scored m r w len threshold (id, d)).toList) →
          ∃ mf', m.scoreLoop r w len threshold l res' mf1 (ex || item.variants.isSome) =
            .ok (res ++ ((id, d) :: l).filterMap (scored m r w len threshold), mf',
              ex || ((id, d) :: l).any fun y => ((m.decoder[y.1]?).bind VocabValue.variants).isSome) ∧
          mf ≤ mf' ∧
          (∀ y ∈ (id, d) :: l, ∀ item, m.decoder[y.1]? = some item →
            (if m.haveFreq then r.rnd item.frequency else 1) ≤ mf') ∧
          (mf' = mf ∨ ∃ y ∈ (id, d) :: l, ∃ item, m.decoder[y.1]? = some item ∧
            mf' = if m.haveFreq then r.rnd item.frequency else 1) := by
        intro res' hres
        obtain ⟨mf', h1, h2, h3, h4⟩ := ih res' mf1 (ex || item.variants.isSome)
        refine ⟨mf', ?_, hmf.1.trans h2, ?_, ?_⟩
        · rw [h1, hres]
          simp only [List.any_cons, hv, Option.bind_some, Bool.or_assoc]
          rw [List.filterMap_cons]
          cases scored m r w len threshold (id, d) <;> simp
        · intro y hy it hit
          rcases List.mem_cons.mp hy with rfl | hy
          · rw [hv] at hit; cases hit
            rw [hf]; exact hmf.2.1.trans h2
          · exact h3 y hy it hit
        · rcases h4 with h4 | ⟨y, hy, h4⟩
          · rcases hmf.2.2 with e | e
            · exact .inl (h4.trans e)
            · exact .inr ⟨(id, d), List.mem_cons_self, item, hv, by rw [hf, h4, e]⟩
          · exact .inr ⟨y, List.mem_cons_of_mem _ hy, h4⟩
      split
      · next hs => exact fin _ (by simp [scored, hv, hs, hf])
      · next hs => exact fin _ (by simp [scored, hv, hs])

/-! ## Ranking -/

/-- the order used for ranking: `a` may stand before `b` -/
def rankLe (r : Rounding) (fw : Rat) (a b : VariantResult) : Bool := a.rankCmp r fw b != .gt

theorem rankLe_iff (r : Rounding) (fw : Rat) (a b : VariantResult) :
    rankLe r fw a b = true ↔ if fw > 0 then b.score r fw ≤ a.score r fw
      else b.distScore < a.distScore ∨ (b.distScore = a.distScore ∧ b.freqScore ≤ a.freqScore) := by
  unfold rankLe VariantResult.rankCmp
  split
  · split
    · next h => simpa using h.le
    · split
      · next h => simpa using h
      · next h _ => simpa using not_lt.mp ‹_›
  · split
    · next h => simpa using Or.inl h
    · split
      · next h1 h2 =>
        have : ¬ (b.distScore < a.distScore) := h1
        have : b.distScore ≠ a.distScore := h2.ne'
        simp [*]
      · next h1 h2 =>
        have e : b.distScore = a.distScore := le_antisymm (not_lt.mp h2) (not_lt.mp h1)
        split
        · next h => simpa [e] using h.le
        · split
          · next h => simpa [e] using h
          · next h => simpa [e] using not_lt.mp h

theorem rankLe_trans (r : Rounding) (fw : Rat) (a b c : VariantResult)
    (h1 : rankLe r fw a b = true) (h2 : rankLe r fw b c = true) : rankLe r fw a c = true := by
  rw [rankLe_iff] at *
  split
  · next h =>
    rw [if_pos h] at h1 h2
    exact h2.trans h1
  · next h =>
    rw [if_neg h] at h1 h2
    rcases h1 with h1 | ⟨e1, h1⟩ <;> rcases h2 with h2 | ⟨e2, h2⟩
    · exact .inl (h2.trans h1)
    · exact .inl (e2 ▸ h1)
    · exact .inl (e1 ▸ h2)
    · exact .inr ⟨e2.trans e1, h2.trans h1⟩

theorem rankLe_total (r : Rounding) (fw : Rat) (a b : VariantResult) :
    (rankLe r fw a b || rankLe r fw b a) = true := by
  rw [Bool.or_eq_true, rankLe_iff, rankLe_iff]
  split
  · exact le_total _ _
  · rcases lt_trichotomy b.distScore a.distScore with h | h | h
    · exact .inl (.inl h)
    · rcases le_total b.freqScore a.freqScore with h' | h'
      · exact .inl (.inr ⟨h, h'⟩)
      · exact .inr (.inr ⟨h.symm, h'⟩)
    · exact .inr (.inl h)

theorem rankResults_perm (r : Rounding) (fw : Rat) (l : List VariantResult) :
    (rankResults r fw l).Perm l := List.perm_insertionSort _ _

theorem rankResults_sorted (r : Rounding) (fw : Rat) (l : List VariantResult) :
    (rankResults r fw l).Pairwise fun a b => rankLe r fw a b = true := by
  have : Std.Total fun a b => rankLe r fw a b = true :=
    ⟨fun a b => by simpa using rankLe_total r fw a b⟩
  have : IsTrans VariantResult fun a b => rankLe r fw a b = true := ⟨rankLe_trans r fw⟩
  exact List.pairwise_insertionSort (fun a b => rankLe r fw a b = true) l

theorem rankResults_stable (r : Rounding) (fw : Rat) (l : List VariantResult) {a b : VariantResult}
    (h : rankLe r fw a b = true) (hab : [a, b].Sublist l) : [a, b].Sublist (rankResults r fw l) :=
  List.pair_sublist_insertionSort (r := fun a b => rankLe r fw a b = true) h hab

theorem rankLe_score (r : Rounding) {fw : Rat} (hfw : 0 ≤ fw) {a b : VariantResult}
    (h : rankLe r fw a b = true) : b.score r fw ≤ a.score r fw := by
  rw [rankLe_iff] at h
  split at h
  · exact h
  · next hf =>
    have e : fw = 0 := le_antisymm (not_lt.mp hf) hfw
    simp only [VariantResult.score, e, if_true]
    rcases h with h | ⟨h, _⟩
    · exact h.le
    · exact h.le

/-! ## Pruning -/

theorem take_isPrefix_of {α : Type} (l : List α) (n : Nat) : l.take n <+: l := List.take_prefix n l

theorem crop_prefix (r : Rounding) (fw : Rat) (n : Nat) (l : List VariantResult) :
    crop r fw n l <+: l := by
  unfold crop
  repeat' split
  all_goals first | exact List.take_prefix _ _ | exact List.prefix_refl _

theorem cutoffScan_pos {cropped : Rat} {i early : Nat} {l : List VariantResult} :
    (0 < early → (cutoffScan cropped i early l).1 = early) := by
  induction l generalizing i early with
  | nil => intro _; rfl
  | cons x l ih =>
    intro h
    simp only [cutoffScan]
    have : (if x.distScore = cropped ∧ early = 0 then i else early) = early := by
      rw [if_neg (by omega)]
    rw [this]
    split
    · rfl
    · exact ih h

theorem crop_nonempty (r : Rounding) (fw : Rat) (n : Nat) (a : VariantResult)
    (l : List VariantResult) : ∃ l', crop r fw n (a :: l) = a :: l' := by
  have key : ∀ k, 0 < k → ∃ l', (a :: l).take k = a :: l' := by
    intro k hk
    cases k with
    | zero => omega
    | succ k => exact ⟨_, rfl⟩
  unfold crop
  split
  · next hn =>
    split
    · split
      · exact key n hn
      · simp only
        split
        · exact key _ (by omega)
        · split
          · exact key _ (by omega)
          · exact ⟨l, rfl⟩
    · exact ⟨l, rfl⟩
  · exact ⟨l, rfl⟩

theorem cutoffIndex_spec (r : Rounding) (fw limit : Rat) (i : Nat) (hi : 0 < i)
    (l : List VariantResult) (hs : l.Pairwise fun a b => b.score r fw ≤ a.score r fw) :
    (if cutoffIndex r fw limit i l > 0 then l.take (cutoffIndex r fw limit i l - i) else l) =
      l.filter fun x => limit < x.score r fw := by
  induction l generalizing i with
  | nil => simp
  | cons x l ih =>
    rw [List.pairwise_cons] at hs
    by_cases h : x.score r fw ≤ limit
    · rw [show cutoffIndex r fw limit i (x :: l) = i from if_pos h, if_pos hi]
      have : ∀ y ∈ x :: l, ¬ limit < y.score r fw := by
        intro y hy
        rcases List.mem_cons.mp hy with rfl | hy
        · exact not_lt.mpr h
        · exact not_lt.mpr ((hs.1 y hy).trans h)
      rw [Nat.sub_self, List.take_zero]
      symm
      rw [List.filter_eq_nil_iff]
      intro y hy
      simpa using not_lt.mp (this y hy)
    · rw [show cutoffIndex r fw limit i (x :: l) = cutoffIndex r fw limit (i + 1) l from if_neg h]
      have ih := ih (i + 1) (by omega) hs.2
      have hge : ∀ (j : Nat) (l : List VariantResult), 0 < cutoffIndex r fw limit j l →
          j ≤ cutoffIndex r fw limit j l := by
        intro j l
        induction l generalizing j with
        | nil => intro h; simp [cutoffIndex] at h
        | cons y l ih' =>
          intro h
          simp only [cutoffIndex] at h ⊢
          split at h
          · next hc => rw [if_pos hc]
          · next hc =>
            rw [if_neg hc]
            have := ih' (j + 1) h
            omega
      rw [List.filter_cons_of_pos (by simpa using h), ← ih]
      split
      · next hc =>
        have := hge _ _ hc
        obtain ⟨k, hk⟩ : ∃ k, cutoffIndex r fw limit (i + 1) l - i = k + 1 :=
          ⟨cutoffIndex r fw limit (i + 1) l - (i + 1), by omega⟩
        rw [hk, List.take_succ_cons]
        congr 2
        omega
      · rfl

theorem applyCutoff_spec (r : Rounding) {fw threshold : Rat} (ht : 1 ≤ threshold)
    (a : VariantResult) (l : List VariantResult)
    (hs : (a :: l).Pairwise fun a b => b.score r fw ≤ a.score r fw) :
    applyCutoff r fw threshold (a :: l) =
      a :: l.filter fun x => r.rnd (a.score r fw / threshold) < x.score r fw := by
  rw [List.pairwise_cons] at hs
  have := cutoffIndex_spec r fw (r.rnd (a.score r fw / threshold)) 1 (by omega) l hs.2
  rw [← this]
  unfold applyCutoff
  rw [if_pos ht]
  simp only
  split
  · next h =>
    obtain ⟨k, hk⟩ : ∃ k, cutoffIndex r fw (r.rnd (a.score r fw / threshold)) 1 l = k + 1 :=
      ⟨_, (Nat.succ_pred_eq_of_pos h).symm⟩
    rw [hk, List.take_succ_cons, Nat.add_sub_cancel]
  · rfl

theorem applyCutoff_prefix (r : Rounding) (fw threshold : Rat) (l : List VariantResult) :
    applyCutoff r fw threshold l <+: l := by
  unfold applyCutoff
  split
  · split
    · exact List.prefix_refl _
    · simp only
      split
      · exact List.take_prefix _ _
      · exact List.prefix_refl _
  · exact List.prefix_refl _

theorem applyCutoff_nonempty (r : Rounding) (fw threshold : Rat) (a : VariantResult)
    (l : List VariantResult) : ∃ l', applyCutoff r fw threshold (a :: l) = a :: l' := by
  unfold applyCutoff
  split
  · simp only
    split
    · next h =>
      obtain ⟨k, hk⟩ : ∃ k, cutoffIndex r fw (r.rnd (a.score r fw / threshold)) 1 l = k + 1 :=
        ⟨_, (Nat.succ_pred_eq_of_pos h).symm⟩
      rw [hk]
      exact ⟨_, rfl⟩
    · exact ⟨l, rfl⟩
  · exact ⟨l, rfl⟩

/-! ## Removing adjacent duplicates -/

theorem dedupIds_sublist (l : List VariantResult) : (dedupIds l).Sublist l := by
  induction l with
  | nil => exact .slnil
  | cons a l ih =>
    simp only [dedupIds]
    split
    · next h => exact (List.nil_sublist l).cons_cons a
    · next b l' h =>
      rw [h] at ih
      split
      · exact ((List.sublist_cons_self b l').trans ih).cons_cons a
      · exact ih.cons_cons a

theorem dedupIds_cons (a : VariantResult) (l : List VariantResult) :
    ∃ l', dedupIds (a :: l) = a :: l' := by
  simp only [dedupIds]
  split
  · exact ⟨[], rfl⟩
  · split
    · exact ⟨_, rfl⟩
    · exact ⟨_, rfl⟩

theorem dedupIds_ids (l : List VariantResult) (x : VariantResult) (hx : x ∈ l) :
    ∃ y ∈ dedupIds l, y.vocabId = x.vocabId := by
  induction l with
  | nil => cases hx
  | cons a l ih =>
    rcases List.mem_cons.mp hx with rfl | hx
    · obtain ⟨l', h⟩ := dedupIds_cons x l
      rw [h]
      exact ⟨x, List.mem_cons_self, rfl⟩
    · obtain ⟨y, hy, he⟩ := ih hx
      simp only [dedupIds]
      split
      · next h => rw [h] at hy; cases hy
      · next b l' h =>
        rw [h] at hy
        split
        · next e =>
          rcases List.mem_cons.mp hy with rfl | hy
          · exact ⟨a, List.mem_cons_self, by rw [e, he]⟩
          · exact ⟨y, List.mem_cons_of_mem _ hy, he⟩
        · exact ⟨y, List.mem_cons_of_mem _ hy, he⟩

/-! ## Frequencies -/

theorem maxFreqOf_spec (l : List VariantResult) (mf : Rat) :
    mf ≤ maxFreqOf l mf ∧ (∀ x ∈ l, x.freqScore ≤ maxFreqOf l mf) ∧
    (maxFreqOf l mf = mf ∨ ∃ x ∈ l, maxFreqOf l mf = x.freqScore) := by
  induction l generalizing mf with
  | nil => simp [maxFreqOf]
  | cons a l ih =>
    have h := ih (if a.freqScore > mf then a.freqScore else mf)
    have e : maxFreqOf (a :: l) mf = maxFreqOf l (if a.freqScore > mf then a.freqScore else mf) := rfl
    rw [e]
    have hmf : mf ≤ (if a.freqScore > mf then a.freqScore else mf) ∧
        a.freqScore ≤ (if a.freqScore > mf then a.freqScore else mf) ∧
        ((if a.freqScore > mf then a.freqScore else mf) = mf ∨
          (if a.freqScore > mf then a.freqScore else mf) = a.freqScore) := by
      split
      · next h => exact ⟨h.le, le_rfl, .inr rfl⟩
      · next h => exact ⟨le_rfl, not_lt.mp h, .inl rfl⟩
    generalize (if a.freqScore > mf then a.freqScore else mf) = mf1 at *
    refine ⟨hmf.1.trans h.1, ?_, ?_⟩
    · intro x hx
      rcases List.mem_cons.mp hx with rfl | hx
      · exact hmf.2.1.trans h.1
      · exact h.2.1 x hx
    · rcases h.2.2 with h2 | ⟨x, hx, h2⟩
      · rcases hmf.2.2 with e | e
        · exact .inl (h2.trans e)
        · exact .inr ⟨a, List.mem_cons_self, h2.trans e⟩
      · exact .inr ⟨x, List.mem_cons_of_mem _ hx, h2⟩

end Verif.Lemmas
