import Verif.Lemmas.Edit
import Verif.Model.Distance

/-! # The row-wise algorithm computes the least alignment cost -/
namespace Verif.Lemmas

open Verif.Spec Verif.Model

theorem levCell_eq (up diag left : Nat) :
    levCell up diag left = min (min (left + 1) (up + 1)) diag := by
  unfold levCell; split <;> split <;> omega

/-- distances of the reversed prefixes of `as` (below `ra`) to `rb` -/
noncomputable def cacheOf (rb : List Nat) : List Nat → List Nat → List Nat
  | _, [] => []
  | ra, x :: as => dist False (x :: ra) rb :: cacheOf rb (x :: ra) as

theorem levInner_eq (e : Nat) (rb : List Nat) :
    ∀ (as ra : List Nat),
      levInner e as (cacheOf rb ra as) (dist False ra rb) (dist False ra (e :: rb)) =
        (cacheOf (e :: rb) ra as, dist False (as.reverse ++ ra) (e :: rb)) := by
  intro as
  induction as with
  | nil => intro ra; simp [levInner, cacheOf]
  | cons x as ih =>
    intro ra
    have hrec := dist_cons_cons_lev (sw := False) not_false x e ra rb
    have hcell : levCell (dist False (x :: ra) rb)
        (if x = e then dist False ra rb else dist False ra rb + 1) (dist False ra (e :: rb)) =
        dist False (x :: ra) (e :: rb) := by
      rw [levCell_eq, hrec]; split <;> omega
    simp only [levInner, cacheOf, hcell, ih (x :: ra)]
    simp

theorem levInner_first (e : Nat) (rb : List Nat) (x : Nat) (as : List Nat) :
    levInner e (x :: as) (cacheOf rb [] (x :: as)) rb.length rb.length =
      (cacheOf (e :: rb) [] (x :: as), dist False (x :: as).reverse (e :: rb)) := by
  have hrec := dist_cons_cons_lev (sw := False) not_false x e [] rb
  rw [dist_nil_left, dist_nil_left] at hrec
  have hcell : levCell (dist False [x] rb)
      (if x = e then rb.length else rb.length + 1) rb.length =
      dist False [x] (e :: rb) := by
    rw [levCell_eq, hrec]; simp only [List.length_cons]; split <;> omega
  simp only [levInner, cacheOf, hcell, levInner_eq e rb as [x]]
  simp

theorem levOuter_eq (x : Nat) (as : List Nat) :
    ∀ (bs rb : List Nat), bs ≠ [] → ∀ r,
      levOuter (x :: as) bs rb.length (cacheOf rb [] (x :: as)) r =
        dist False (x :: as).reverse (bs.reverse ++ rb) := by
  intro bs
  induction bs with
  | nil => intro rb h; exact absurd rfl h
  | cons e bs ih =>
    intro rb _ r
    simp only [levOuter, levInner_first]
    cases bs with
    | nil => simp [levOuter]
    | cons e' bs =>
      have := ih (e :: rb) (by simp) (dist False (x :: as).reverse (e :: rb))
      rw [List.length_cons] at this
      rw [this]; simp

theorem cacheOf_nil (as ra : List Nat) :
    cacheOf [] ra as = (List.range as.length).map (· + (ra.length + 1)) := by
  induction as generalizing ra with
  | nil => simp [cacheOf]
  | cons x as ih =>
    simp only [cacheOf, dist_nil_right, ih, List.length_cons, List.range_succ_eq_map,
      List.map_cons, List.map_map]
    congr 1
    · omega
    · apply List.map_congr_left; intro k _; simp only [Function.comp]; omega

theorem levOuter_correct {a b : List Nat} (ha : a ≠ []) (hb : b ≠ []) :
    levOuter a b 0 ((List.range a.length).map (· + 1)) 0 = dist False a b := by
  cases a with
  | nil => exact absurd rfl ha
  | cons x as =>
    have h := levOuter_eq x as b [] hb 0
    rw [cacheOf_nil] at h
    simp only [List.length_nil, Nat.zero_add, List.append_nil] at h
    rw [h, dist_reverse]

theorem levenshtein_eq (a b : List Nat) (k : Nat) (hk : k ≤ 255) :
    levenshtein a b k = if dist False a b ≤ k then some (dist False a b) else none := by
  have hlen := dist_length (sw := False) a b
  unfold levenshtein
  by_cases hab : a = b
  · have h0 : dist False a b = 0 := dist_eq_zero.mpr hab
    rw [if_pos hab, h0]; simp
  · rw [if_neg hab]
    by_cases ha : a.length = 0
    · have : a = [] := List.length_eq_zero_iff.mp ha
      subst this
      rw [if_pos ha, dist_nil_left]
      by_cases h : b.length > k
      · rw [if_pos h, if_neg (by omega)]
      · rw [if_neg h, if_pos (by omega), Nat.mod_eq_of_lt (by omega)]
    · rw [if_neg ha]
      split
      · next h => rw [if_neg]; omega
      · split
        · next hb =>
          have : b = [] := List.length_eq_zero_iff.mp hb
          subst this
          rw [dist_nil_right]
          by_cases h : a.length > k
          · rw [if_pos h, if_neg (by omega)]
          · rw [if_neg h, if_pos (by omega), Nat.mod_eq_of_lt (by omega)]
        · next hb =>
          split
          · next h => rw [if_neg]; omega
          · rw [levOuter_correct (by rintro rfl; exact ha rfl) (by rintro rfl; exact hb rfl)]
            simp only []
            by_cases h : dist False a b > k
            · rw [if_pos h, if_neg (by omega)]
            · rw [if_neg h, if_pos (by omega), Nat.mod_eq_of_lt (by omega)]

end Verif.Lemmas
