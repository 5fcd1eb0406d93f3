import Verif.Model.LearnSearch
import Verif.Lemmas.Batch

/-!
# Collecting results with several workers
-/
namespace Verif.Lemmas

open Verif.Spec Verif.Model

theorem collectSeq_ok {α β : Type} {f : α → Res β} {l : List α} {l' : List β} :
    collectSeq f l = .ok l' ↔ List.Forall₂ (fun s s' => f s = .ok s') l l' := by
  induction l generalizing l' with
  | nil => simp only [collectSeq, Except.ok.injEq, List.forall₂_nil_left_iff]; exact eq_comm
  | cons s l ih =>
    rw [collectSeq, bind_ok, List.forall₂_cons_left_iff]
    constructor
    · rintro ⟨s', h1, h⟩
      obtain ⟨r, h2, h⟩ := bind_ok.mp h
      exact ⟨s', r, h1, ih.mp h2, (pure_ok.mp h).symm⟩
    · rintro ⟨s', r, h1, h2, rfl⟩
      exact ⟨s', h1, bind_ok.mpr ⟨r, ih.mpr h2, rfl⟩⟩

theorem collectSlots_ok {α β : Type} {f : α → Res β} {l : List α} (is : List Nat) :
    ∀ {slots slots' : List (Option β)}, is.Nodup → slots.length = l.length →
    (collectSlots f l is slots = .ok slots' ↔ slots'.length = slots.length ∧
      ∀ i s, l[i]? = some s → (i ∈ is → ∃ b, f s = .ok b ∧ slots'[i]? = some (some b)) ∧
        (i ∉ is → slots'[i]? = slots[i]?)) := by
  induction is with
  | nil =>
    intro slots slots' _ hlen
    simp only [collectSlots, Except.ok.injEq, List.not_mem_nil, false_imp_iff, not_false_eq_true,
      true_imp_iff, true_and]
    constructor
    · rintro rfl; exact ⟨rfl, fun i s h => rfl⟩
    · rintro ⟨h1, h2⟩
      apply List.ext_getElem?
      intro i
      cases h : l[i]? with
      | none =>
        rw [List.getElem?_eq_none_iff] at h
        rw [List.getElem?_eq_none (by omega), List.getElem?_eq_none (by omega)]
      | some s => exact (h2 i s h).symm
  | cons j is ih =>
    intro slots slots' hnd hlen
    rw [List.nodup_cons] at hnd
    rw [collectSlots]
    cases hj : l[j]? with
    | none =>
      simp only
      rw [ih hnd.2 hlen]
      apply and_congr_right
      intro hl
      apply forall_congr'; intro i
      apply forall_congr'; intro s
      apply imp_congr_right; intro hi
      have hij : i ≠ j := by rintro rfl; rw [hj] at hi; cases hi
      simp [hij]
    | some sj =>
      simp only
      rw [bind_ok]
      have hjl := (List.getElem?_eq_some_iff.mp hj).1
      constructor
      · rintro ⟨b, h1, h2⟩
        obtain ⟨h3, h4⟩ := (ih hnd.2 (by rw [List.length_set]; exact hlen)).mp h2
        refine ⟨by rw [h3, List.length_set], ?_⟩
        intro i s hi
        by_cases hij : i = j
        · subst hij
          rw [hj] at hi; cases hi
          refine ⟨fun _ => ⟨b, h1, ?_⟩, fun h => absurd List.mem_cons_self h⟩
          rw [(h4 i sj hj).2 hnd.1, List.getElem?_set_self (by omega)]
        · obtain ⟨h5, h6⟩ := h4 i s hi
          refine ⟨?_, ?_⟩
          · intro h; rw [List.mem_cons] at h; exact h5 (h.resolve_left hij)
          · intro h
            rw [h6 (fun h' => h (List.mem_cons_of_mem _ h')), List.getElem?_set_ne (Ne.symm hij)]
      · rintro ⟨h1, h2⟩
        obtain ⟨b, h3, h4⟩ := (h2 j sj hj).1 List.mem_cons_self
        refine ⟨b, h3, (ih hnd.2 (by rw [List.length_set]; exact hlen)).mpr
          ⟨by rw [h1, List.length_set], ?_⟩⟩
        intro i s hi
        by_cases hij : i = j
        · subst hij
          refine ⟨fun h => absurd h hnd.1, fun _ => ?_⟩
          rw [h4, List.getElem?_set_self (by omega)]
        · obtain ⟨h5, h6⟩ := h2 i s hi
          refine ⟨fun h => h5 (List.mem_cons_of_mem _ h), fun h => ?_⟩
          rw [List.getElem?_set_ne (Ne.symm hij)]
          apply h6
          rw [List.mem_cons]; rintro (h' | h')
          · exact hij h'
          · exact h h'

/-- Whatever the schedule, the results are those of one item after the other. -/
theorem collectPar_perm {α β : Type} {f : α → Res β} {is : List Nat} {l : List α} {l' : List β}
    (h : is.Perm (List.range l.length)) : collectPar f is l = .ok l' ↔ collectSeq f l = .ok l' := by
  rw [collectPar, bind_ok, collectSeq_ok, List.forall₂_iff_get]
  simp only [collectSlots_ok is (h.nodup_iff.mpr List.nodup_range) (List.length_replicate ..),
    List.length_replicate, pure_ok]
  have hm : ∀ i s, l[i]? = some s → i ∈ is := by
    intro i s hi
    rw [h.mem_iff, List.mem_range]
    exact (List.getElem?_eq_some_iff.mp hi).1
  constructor
  · rintro ⟨slots, ⟨h1, h2⟩, h3⟩
    have key : slots = l'.map some := by
      rw [← h3]
      have : ∀ s ∈ slots, ∃ b, s = some b := by
        intro s hs
        obtain ⟨i, hi, rfl⟩ := List.getElem_of_mem hs
        have hil : i < l.length := by omega
        obtain ⟨b, _, hb⟩ := (h2 i _ (List.getElem?_eq_getElem hil)).1
          (hm i _ (List.getElem?_eq_getElem hil))
        rw [List.getElem?_eq_getElem hi] at hb
        exact ⟨b, Option.some.inj hb⟩
      clear h3 h2 h1
      induction slots with
      | nil => rfl
      | cons s slots ih =>
        obtain ⟨b, rfl⟩ := this s (by simp)
        exact congrArg (some b :: ·) (ih fun s hs => this s (by simp [hs]))
    subst key
    rw [List.length_map] at h1
    refine ⟨h1.symm, ?_⟩
    intro i hi hi'
    obtain ⟨b, h4, h5⟩ := (h2 i _ (List.getElem?_eq_getElem hi)).1
      (hm i _ (List.getElem?_eq_getElem hi))
    rw [List.getElem?_map, List.getElem?_eq_getElem hi', Option.map_some] at h5
    cases h5
    exact h4
  · rintro ⟨h1, h2⟩
    refine ⟨l'.map some, ⟨by rw [List.length_map, h1], ?_⟩, ?_⟩
    · intro i s hs
      refine ⟨fun _ => ?_, fun h => absurd (hm i s hs) h⟩
      have hi := (List.getElem?_eq_some_iff.mp hs).1
      refine ⟨l'[i]'(h1 ▸ hi), ?_, ?_⟩
      · have := h2 i hi (h1 ▸ hi)
        rw [← (List.getElem?_eq_some_iff.mp hs).2]
        exact this
      · rw [List.getElem?_map, List.getElem?_eq_getElem (h1 ▸ hi)]; rfl
    · rw [List.filterMap_map]; simp

theorem collectSeq_congr {α β : Type} {f g : α → Res β} {l : List α} {l' : List β}
    (h : ∀ a ∈ l, ∀ b, f a = .ok b ↔ g a = .ok b) :
    collectSeq f l = .ok l' ↔ collectSeq g l = .ok l' := by
  rw [collectSeq_ok, collectSeq_ok, List.forall₂_iff_get, List.forall₂_iff_get]
  apply and_congr_right
  intro _
  apply forall_congr'; intro i
  apply forall_congr'; intro hi
  apply forall_congr'; intro hi'
  exact h _ (List.get_mem _ _) _

end Verif.Lemmas
