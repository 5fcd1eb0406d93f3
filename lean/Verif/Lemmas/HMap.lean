import Verif.Model.HMap
import Mathlib.Data.List.Nodup

/-! # Association lists -/
namespace Verif.Lemmas

open Verif.Model

variable {κ β : Type} [DecidableEq κ]

theorem get?_insert (m : HMap κ β) (k k' : κ) (v : β) :
    HMap.get? (HMap.insert m k v) k' = if k = k' then some v else HMap.get? m k' := by
  induction m with
  | nil => simp [HMap.insert, HMap.get?]
  | cons x m ih =>
    obtain ⟨a, b⟩ := x
    simp only [HMap.insert]
    by_cases h : a = k
    · subst h
      simp only [if_true, HMap.get?]
      by_cases h2 : a = k' <;> simp [h2]
    · simp only [h, if_false, HMap.get?, ih]
      by_cases h2 : a = k'
      · subst h2; simp [Ne.symm h]
      · simp [h2]

theorem keys_insert (m : HMap κ β) (k : κ) (v : β) :
    (HMap.insert m k v).map Prod.fst =
      if k ∈ m.map Prod.fst then m.map Prod.fst else m.map Prod.fst ++ [k] := by
  induction m with
  | nil => simp [HMap.insert]
  | cons x m ih =>
    obtain ⟨a, b⟩ := x
    simp only [HMap.insert]
    by_cases h : a = k
    · subst h; simp
    · simp only [h, if_false, List.map_cons, ih, List.mem_cons]
      have : k ≠ a := Ne.symm h
      simp only [this, false_or]
      split <;> simp

theorem nodup_insert {m : HMap κ β} (h : (m.map Prod.fst).Nodup) (k : κ) (v : β) :
    ((HMap.insert m k v).map Prod.fst).Nodup := by
  rw [keys_insert]
  split
  · exact h
  · next hk =>
    rw [List.nodup_append]
    refine ⟨h, by simp, ?_⟩
    intro a ha b hb
    simp only [List.mem_singleton] at hb
    subst hb
    rintro rfl
    exact hk ha

theorem get?_eq_none {m : HMap κ β} {k : κ} : HMap.get? m k = none ↔ k ∉ m.map Prod.fst := by
  induction m with
  | nil => simp [HMap.get?]
  | cons x m ih =>
    obtain ⟨a, b⟩ := x
    simp only [HMap.get?]
    by_cases h : a = k
    · subst h; simp
    · have : k ≠ a := Ne.symm h
      simp [h, ih, this]

theorem mem_of_get? {m : HMap κ β} {k : κ} {v : β} (h : HMap.get? m k = some v) : (k, v) ∈ m := by
  induction m with
  | nil => simp [HMap.get?] at h
  | cons x m ih =>
    obtain ⟨a, b⟩ := x
    simp only [HMap.get?] at h
    split at h
    · next e => subst e; cases h; simp
    · exact List.mem_cons_of_mem _ (ih h)

theorem get?_of_mem {m : HMap κ β} (hn : (m.map Prod.fst).Nodup) {k : κ} {v : β}
    (h : (k, v) ∈ m) : HMap.get? m k = some v := by
  induction m with
  | nil => cases h
  | cons x m ih =>
    obtain ⟨a, b⟩ := x
    simp only [List.map_cons, List.nodup_cons] at hn
    rcases List.mem_cons.mp h with h | h
    · cases h; simp [HMap.get?]
    · have : a ≠ k := by
        rintro rfl
        exact hn.1 (List.mem_map.mpr ⟨_, h, rfl⟩)
      simp only [HMap.get?, this, if_false]
      exact ih hn.2 h

theorem get?_iff_mem {m : HMap κ β} (hn : (m.map Prod.fst).Nodup) {k : κ} {v : β} :
    HMap.get? m k = some v ↔ (k, v) ∈ m := ⟨mem_of_get?, get?_of_mem hn⟩

theorem get?_map_values {γ : Type} (m : HMap κ β) (f : β → γ) (k : κ) :
    HMap.get? (m.map fun x => (x.1, f x.2)) k = (HMap.get? m k).map f := by
  induction m with
  | nil => rfl
  | cons x m ih =>
    obtain ⟨a, b⟩ := x
    simp only [List.map_cons, HMap.get?]
    split <;> simp [ih]

end Verif.Lemmas
