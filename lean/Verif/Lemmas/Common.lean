import Verif.Model.Distance
import Mathlib.Data.List.Basic
import Mathlib.Data.List.Infix
import Mathlib.Order.Bounds.Basic
import Mathlib.Order.Nat

/-! # Common prefix, suffix and substring lengths -/
namespace Verif.Lemmas

open Verif.Model

theorem lcsRun_eq_prefix (s t : List Nat) : lcsRun s t = commonPrefixLength s t := by
  induction s generalizing t with
  | nil => cases t <;> simp [lcsRun, commonPrefixLength]
  | cons x s ih => cases t <;> simp [lcsRun, commonPrefixLength, ih]

theorem prefix_comm (s t : List Nat) : commonPrefixLength s t = commonPrefixLength t s := by
  induction s generalizing t with
  | nil => cases t <;> simp [commonPrefixLength]
  | cons x s ih =>
    cases t with
    | nil => simp [commonPrefixLength]
    | cons y t => simp only [commonPrefixLength, ih, eq_comm]

theorem prefix_le (s t : List Nat) : commonPrefixLength s t ≤ s.length := by
  induction s generalizing t with
  | nil => cases t <;> simp [commonPrefixLength]
  | cons x s ih =>
    cases t with
    | nil => simp [commonPrefixLength]
    | cons y t =>
      simp only [commonPrefixLength, List.length_cons]
      have := ih t
      split <;> omega

theorem prefix_take (s t : List Nat) :
    s.take (commonPrefixLength s t) = t.take (commonPrefixLength s t) := by
  induction s generalizing t with
  | nil => cases t <;> simp [commonPrefixLength]
  | cons x s ih =>
    cases t with
    | nil => simp [commonPrefixLength]
    | cons y t =>
      simp only [commonPrefixLength]
      split
      · next h => simp [h, ih t]
      · simp

theorem prefix_max {z s t : List Nat} (h1 : z <+: s) (h2 : z <+: t) :
    z.length ≤ commonPrefixLength s t := by
  induction z generalizing s t with
  | nil => simp
  | cons c z ih =>
    obtain ⟨s', rfl⟩ := h1
    obtain ⟨t', rfl⟩ := h2
    simp only [List.cons_append, commonPrefixLength, if_true, List.length_cons]
    have := ih (s := z ++ s') (t := z ++ t') ⟨s', rfl⟩ ⟨t', rfl⟩
    omega

theorem suffixLoop_eq (s t : List Nat) : ∀ (fuel i n : Nat),
    i + fuel = min s.length t.length →
    suffixLoop s t fuel i n =
      n + commonPrefixLength ((s.reverse).drop i) ((t.reverse).drop i) := by
  intro fuel
  induction fuel with
  | zero =>
    intro i n h
    simp only [suffixLoop]
    have : (s.reverse).drop i = [] ∨ (t.reverse).drop i = [] := by
      rcases Nat.le_total s.length t.length with h' | h'
      · left; apply List.drop_eq_nil_of_le; simp; omega
      · right; apply List.drop_eq_nil_of_le; simp; omega
    rcases this with h | h <;> rw [h]
    · cases (t.reverse).drop i <;> simp [commonPrefixLength]
    · rw [prefix_comm]; cases (s.reverse).drop i <;> simp [commonPrefixLength]
  | succ fuel ih =>
    intro i n h
    have hs : i < s.length := by omega
    have ht : i < t.length := by omega
    have e1 : s.reverse.drop i = s[s.length - i - 1] :: s.reverse.drop (i + 1) := by
      rw [List.drop_eq_getElem_cons (by simpa using hs)]
      congr 1
      rw [List.getElem_reverse]
      congr 1; omega
    have e2 : t.reverse.drop i = t[t.length - i - 1] :: t.reverse.drop (i + 1) := by
      rw [List.drop_eq_getElem_cons (by simpa using ht)]
      congr 1
      rw [List.getElem_reverse]
      congr 1; omega
    simp only [suffixLoop]
    rw [List.getElem?_eq_getElem (by omega : s.length - i - 1 < s.length),
      List.getElem?_eq_getElem (by omega : t.length - i - 1 < t.length), e1, e2]
    simp only [commonPrefixLength, Option.some.injEq]
    split
    · rw [ih (i + 1) (n + 1) (by omega)]; omega
    · simp

theorem suffix_eq (s t : List Nat) :
    commonSuffixLength s t = commonPrefixLength s.reverse t.reverse := by
  rw [commonSuffixLength, suffixLoop_eq s t _ 0 0 (by omega)]
  simp

theorem lcsInner_ge (xs ys : List Nat) (k : Nat) : k ≤ lcsInner xs ys k := by
  induction ys generalizing k with
  | nil => simp [lcsInner]
  | cons y ys ih =>
    simp only [lcsInner]
    refine le_trans ?_ (ih _)
    split <;> omega

theorem lcsInner_spec (xs ys : List Nat) (k : Nat) :
    (∀ y, y <:+ ys → lcsRun xs y ≤ lcsInner xs ys k) ∧
    (lcsInner xs ys k = k ∨ ∃ y, y <:+ ys ∧ lcsInner xs ys k = lcsRun xs y) := by
  induction ys generalizing k with
  | nil =>
    refine ⟨?_, .inl rfl⟩
    intro y hy
    have : y = [] := List.suffix_nil.mp hy
    subst this
    cases xs <;> simp [lcsRun]
  | cons c ys ih =>
    simp only [lcsInner]
    obtain ⟨h1, h2⟩ := ih (if lcsRun xs (c :: ys) > k then lcsRun xs (c :: ys) else k)
    constructor
    · intro y hy
      rcases List.suffix_cons_iff.mp hy with rfl | hy
      · refine le_trans ?_ (lcsInner_ge xs ys _)
        split <;> omega
      · exact h1 y hy
    · rcases h2 with h2 | ⟨y, hy, h2⟩
      · rw [h2]
        split
        · exact .inr ⟨c :: ys, List.suffix_refl _, rfl⟩
        · exact .inl rfl
      · exact .inr ⟨y, hy.trans (List.suffix_cons _ _), h2⟩

theorem lcsOuter_ge (ys xs : List Nat) (k : Nat) : k ≤ lcsOuter ys xs k := by
  induction xs generalizing k with
  | nil => simp [lcsOuter]
  | cons x xs ih =>
    simp only [lcsOuter]
    exact (lcsInner_ge _ _ _).trans (ih _)

theorem lcsOuter_spec (ys xs : List Nat) (k : Nat) :
    (∀ x y, x <:+ xs → y <:+ ys → lcsRun x y ≤ lcsOuter ys xs k) ∧
    (lcsOuter ys xs k = k ∨ ∃ x y, x <:+ xs ∧ y <:+ ys ∧ lcsOuter ys xs k = lcsRun x y) := by
  induction xs generalizing k with
  | nil =>
    refine ⟨?_, .inl rfl⟩
    intro x y hx _
    have : x = [] := List.suffix_nil.mp hx
    subst this
    cases y <;> simp [lcsRun]
  | cons c xs ih =>
    simp only [lcsOuter]
    obtain ⟨h1, h2⟩ := ih (lcsInner (c :: xs) ys k)
    have h3 := lcsInner_spec (c :: xs) ys k
    constructor
    · intro x y hx hy
      rcases List.suffix_cons_iff.mp hx with rfl | hx
      · exact (h3.1 y hy).trans (lcsOuter_ge _ _ _)
      · exact h1 x y hx hy
    · rcases h2 with h2 | ⟨x, y, hx, hy, h2⟩
      · rw [h2]
        rcases h3.2 with h3 | ⟨y, hy, h3⟩
        · exact .inl h3
        · exact .inr ⟨_, y, List.suffix_refl _, hy, h3⟩
      · exact .inr ⟨x, y, hx.trans (List.suffix_cons _ _), hy, h2⟩

theorem lcs_mem (s t : List Nat) :
    ∃ z, z <:+: s ∧ z <:+: t ∧ z.length = longestCommonSubstringLength s t := by
  rcases (lcsOuter_spec t s 0).2 with h | ⟨x, y, hx, hy, h⟩
  · exact ⟨[], ⟨[], s, rfl⟩, ⟨[], t, rfl⟩, by simp [longestCommonSubstringLength, h]⟩
  · refine ⟨x.take (lcsRun x y), ?_, ?_, ?_⟩
    · exact (List.take_prefix _ _).isInfix.trans hx.isInfix
    · rw [lcsRun_eq_prefix, prefix_take]
      exact (List.take_prefix _ _).isInfix.trans hy.isInfix
    · rw [longestCommonSubstringLength, h, List.length_take]
      have := prefix_le x y
      rw [lcsRun_eq_prefix]; omega

theorem lcs_max {z s t : List Nat} (h1 : z <:+: s) (h2 : z <:+: t) :
    z.length ≤ longestCommonSubstringLength s t := by
  obtain ⟨x, hx, hx'⟩ := List.infix_iff_prefix_suffix.mp h1
  obtain ⟨y, hy, hy'⟩ := List.infix_iff_prefix_suffix.mp h2
  have h := (lcsOuter_spec t s 0).1 x y hx' hy'
  rw [lcsRun_eq_prefix] at h
  exact (prefix_max hx hy).trans h

end Verif.Lemmas
