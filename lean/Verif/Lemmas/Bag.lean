import Verif.Spec.Bag
import Mathlib.Data.Nat.Prime.Basic
import Mathlib.Data.List.Prime
import Mathlib.Data.List.Perm.Subperm
import Mathlib.Tactic.NormNum.Prime

/-! # Products of primes represent bags faithfully -/
namespace Verif.Lemmas

open Verif.Spec Verif.Model

theorem primes_length : PRIMES.length = 168 := by decide +kernel

set_option maxRecDepth 10000 in
theorem primes_prime : ∀ p ∈ PRIMES, Nat.Prime p := by
  simp only [PRIMES, List.forall_mem_cons]
  norm_num

theorem primes_sorted : PRIMES.Pairwise (· < ·) := by decide +kernel

theorem symPrime_prime {i : Nat} (h : i < 168) : Nat.Prime (symPrime i) := by
  have hl : i < PRIMES.length := by rw [primes_length]; exact h
  have : symPrime i = PRIMES[i] := by simp [symPrime, List.getD, hl]
  rw [this]
  exact primes_prime _ (List.getElem_mem hl)

theorem symPrime_inj {i j : Nat} (hi : i < 168) (hj : j < 168) (h : symPrime i = symPrime j) :
    i = j := by
  have hi' : i < PRIMES.length := by rw [primes_length]; exact hi
  have hj' : j < PRIMES.length := by rw [primes_length]; exact hj
  have e1 : symPrime i = PRIMES[i] := by simp [symPrime, List.getD, hi']
  have e2 : symPrime j = PRIMES[j] := by simp [symPrime, List.getD, hj']
  rw [e1, e2] at h
  have hs := List.pairwise_iff_getElem.mp primes_sorted
  rcases Nat.lt_trichotomy i j with h' | h' | h'
  · have := hs i j hi' hj' h'; omega
  · exact h'
  · have := hs j i hj' hi' h'; omega

theorem character_eq {i : Nat} (h : i < 168) : character i = .ok (symPrime i) := by
  have hi' : i < PRIMES.length := by rw [primes_length]; exact h
  simp [character, symPrime, List.getD, hi']

theorem character_panic {i : Nat} (h : 168 ≤ i) : character i = .error .index := by
  have : PRIMES[i]? = none := List.getElem?_eq_none (by rw [primes_length]; exact h)
  simp [character, this]

@[simp] theorem bagValue_nil : bagValue [] = 1 := rfl
@[simp] theorem bagValue_cons (i : Nat) (l : List Nat) :
    bagValue (i :: l) = symPrime i * bagValue l := by simp [bagValue]
theorem bagValue_append (k l : List Nat) : bagValue (k ++ l) = bagValue k * bagValue l := by
  simp [bagValue]
theorem bagValue_perm {k l : List Nat} (h : k.Perm l) : bagValue k = bagValue l :=
  (h.map symPrime).prod_eq

theorem bagValue_pos {l : List Nat} (h : Within 168 l) : 0 < bagValue l := by
  induction l with
  | nil => simp
  | cons i l ih =>
    rw [bagValue_cons]
    exact Nat.mul_pos (symPrime_prime (h i (by simp))).pos (ih fun j hj => h j (by simp [hj]))

theorem within_of_subperm {n : Nat} {k l : List Nat} (h : k.Subperm l) (hl : Within n l) :
    Within n k := fun i hi => hl i (h.subset hi)

theorem within_perm {n : Nat} {k l : List Nat} (h : k.Perm l) (hl : Within n l) :
    Within n k := fun i hi => hl i (h.subset hi)

theorem Within.mono {n m : Nat} {l : List Nat} (h : Within n l) (hm : n ≤ m) : Within m l :=
  fun i hi => lt_of_lt_of_le (h i hi) hm

theorem symPrime_dvd_iff {i : Nat} {l : List Nat} (hi : i < 168) (hl : Within 168 l) :
    symPrime i ∣ bagValue l ↔ i ∈ l := by
  constructor
  · intro h
    have hp := (symPrime_prime hi).prime
    rw [bagValue, hp.dvd_prod_iff] at h
    obtain ⟨q, hq, hd⟩ := h
    obtain ⟨j, hj, rfl⟩ := List.mem_map.mp hq
    have hj' := hl j hj
    have := (Nat.prime_dvd_prime_iff_eq (symPrime_prime hi) (symPrime_prime hj')).mp hd
    rw [symPrime_inj hi hj' this]; exact hj
  · intro h
    exact List.dvd_prod (List.mem_map.mpr ⟨i, h, rfl⟩)

theorem dvd_iff_subperm {k l : List Nat} (hk : Within 168 k) (hl : Within 168 l) :
    bagValue k ∣ bagValue l ↔ k.Subperm l := by
  constructor
  · intro h
    induction k generalizing l with
    | nil => exact List.nil_subperm
    | cons i k ih =>
      have hi := hk i (by simp)
      rw [bagValue_cons] at h
      have hmem : i ∈ l := (symPrime_dvd_iff hi hl).mp (dvd_trans (Dvd.intro _ rfl) h)
      have hp := List.perm_cons_erase hmem
      rw [bagValue_perm hp, bagValue_cons] at h
      have h' := (Nat.mul_dvd_mul_iff_left (symPrime_prime hi).pos).mp h
      have := ih (fun j hj => hk j (by simp [hj])) (l := l.erase i)
        (fun j hj => hl j (List.mem_of_mem_erase hj)) h'
      exact ((List.subperm_cons i).mpr this).trans hp.symm.subperm
  · intro h
    obtain ⟨c, hc⟩ : ∃ c, (k ++ c).Perm l := by
      obtain ⟨k', hp, hs⟩ := h
      obtain ⟨c, hc⟩ := hs.exists_perm_append
      exact ⟨c, (hp.symm.append_right c).trans hc.symm⟩
    rw [← bagValue_perm hc, bagValue_append]
    exact Dvd.intro _ rfl

theorem subperm_exists_append {k l : List Nat} (h : k.Subperm l) : ∃ c, (k ++ c).Perm l := by
  obtain ⟨k', hp, hs⟩ := h
  obtain ⟨c, hc⟩ := hs.exists_perm_append
  exact ⟨c, (hp.symm.append_right c).trans hc.symm⟩

theorem bagValue_inj {k l : List Nat} (hk : Within 168 k) (hl : Within 168 l) :
    bagValue k = bagValue l ↔ k.Perm l := by
  constructor
  · intro h
    have h1 := (dvd_iff_subperm hk hl).mp (h ▸ dvd_refl _)
    have h2 := (dvd_iff_subperm hl hk).mp (h ▸ dvd_refl _)
    exact h1.antisymm h2
  · exact bagValue_perm

theorem bagValue_eq_one {l : List Nat} (h : Within 168 l) : bagValue l = 1 ↔ l = [] := by
  rw [← bagValue_nil, bagValue_inj h (by intro i hi; cases hi)]
  exact List.perm_nil

theorem two_pow_le {l : List Nat} (h : Within 168 l) : 2 ^ l.length ≤ bagValue l := by
  induction l with
  | nil => simp
  | cons i l ih =>
    rw [bagValue_cons, List.length_cons, Nat.pow_succ, Nat.mul_comm]
    exact Nat.mul_le_mul (symPrime_prime (h i (by simp))).two_le
      (ih fun j hj => h j (by simp [hj]))

theorem length_le_log2 {l : List Nat} (h : Within 168 l) : l.length ≤ Nat.log2 (bagValue l) := by
  rw [Nat.le_log2 (by have := bagValue_pos h; omega)]
  exact two_pow_le h

theorem anaContains_eq {k l : List Nat} (hk : Within 168 k) (hl : Within 168 l) :
    anaContains (bagValue l) (bagValue k) = .ok (decide (bagValue k ∣ bagValue l)) := by
  have hkp := bagValue_pos hk
  have hlp := bagValue_pos hl
  unfold anaContains
  split
  · next h =>
    have : ¬ bagValue k ∣ bagValue l := fun hd => absurd (Nat.le_of_dvd hlp hd) (by omega)
    simp [this]
  · rw [if_neg (by omega)]
    congr 1
    simp only [Nat.dvd_iff_mod_eq_zero]

theorem anaDelete_bag {c k l : List Nat} (h : (k ++ c).Perm l) (hl : Within 168 l) :
    anaDelete (bagValue l) (bagValue k) = .ok (some (bagValue c)) := by
  have hkc : Within 168 (k ++ c) := within_perm h hl
  have hk : Within 168 k := fun i hi => hkc i (by simp [hi])
  have hd : bagValue k ∣ bagValue l := by
    rw [← bagValue_perm h, bagValue_append]; exact Dvd.intro _ rfl
  rw [anaDelete, anaContains_eq hk hl]
  simp only [hd, decide_true]
  rw [← bagValue_perm h, bagValue_append, Nat.mul_div_cancel_left _ (bagValue_pos hk)]

theorem anaDelete_none {k l : List Nat} (hk : Within 168 k) (hl : Within 168 l)
    (h : ¬ k.Subperm l) : anaDelete (bagValue l) (bagValue k) = .ok none := by
  rw [anaDelete, anaContains_eq hk hl]
  have : ¬ bagValue k ∣ bagValue l := fun hd => h ((dvd_iff_subperm hk hl).mp hd)
  simp [this]

theorem anaDelete_mem {i : Nat} {l : List Nat} (hi : i ∈ l) (hl : Within 168 l) :
    anaDelete (bagValue l) (symPrime i) = .ok (some (bagValue (l.erase i))) := by
  have := anaDelete_bag (k := [i]) (c := l.erase i) (l := l)
    (List.perm_cons_erase hi).symm hl
  simpa using this

theorem anaDelete_not_mem {i : Nat} {l : List Nat} (hi : i < 168) (hn : i ∉ l)
    (hl : Within 168 l) : anaDelete (bagValue l) (symPrime i) = .ok none := by
  have := anaDelete_none (k := [i]) (l := l) (by intro j hj; simp at hj; omega) hl
    (by intro h; exact hn (h.subset (by simp)))
  simpa using this

end Verif.Lemmas
