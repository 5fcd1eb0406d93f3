import Verif.Lemmas.Vocab
import Verif.Lemmas.Encode
import Verif.Lemmas.Iter

/-! # The anagram index -/
namespace Verif.Lemmas

open Verif.Spec Verif.Model

/-- ids stored for a value -/
def idsFor (h : Nat) (hs : List (Nat × Nat)) : List Nat :=
  (hs.filter (fun x => x.1 = h)).map Prod.snd

theorem idsFor_cons (h : Nat) (x : Nat × Nat) (hs : List (Nat × Nat)) :
    idsFor h (x :: hs) = if x.1 = h then x.2 :: idsFor h hs else idsFor h hs := by
  simp only [idsFor, List.filter_cons]
  by_cases e : x.1 = h <;> simp [e]

theorem fillIndex_spec {asz : Nat} {hs : List (Nat × Nat)} {idx idx' : HMap Nat AnaIndexNode}
    (h : fillIndex asz hs idx = .ok idx') (hn : (idx.map Prod.fst).Nodup) :
    (idx'.map Prod.fst).Nodup ∧
    ∀ k, idx'.get? k = match idx.get? k with
      | some node => some { node with instances := node.instances ++ idsFor k hs }
      | none => match idsFor k hs with
        | [] => none
        | i :: is => match charCount k asz with
          | .ok cc => some ⟨i :: is, cc⟩
          | .error _ => none := by
  induction hs generalizing idx with
  | nil =>
    cases h
    refine ⟨hn, fun k => ?_⟩
    cases HMap.get? idx' k <;> simp [idsFor]
  | cons x hs ih =>
    obtain ⟨v, id⟩ := x
    simp only [fillIndex, bind_ok] at h
    obtain ⟨idx1, h1, h2⟩ := h
    unfold indexAdd at h1
    split at h1
    · next node hnode =>
      cases h1
      obtain ⟨a1, a2⟩ := ih h2 (nodup_insert hn _ _)
      refine ⟨a1, fun k => ?_⟩
      rw [a2 k, get?_insert, idsFor_cons]
      by_cases e : v = k
      · subst e; simp [hnode]
      · simp [e]
    · next hnode =>
      simp only [bind_ok, pure_ok] at h1
      obtain ⟨cc, hcc, rfl⟩ := h1
      obtain ⟨a1, a2⟩ := ih h2 (nodup_insert hn _ _)
      refine ⟨a1, fun k => ?_⟩
      rw [a2 k, get?_insert, idsFor_cons]
      by_cases e : v = k
      · subst e; simp [hnode, hcc]
      · simp [e]

theorem hashAll_ids {alphabet : Alphabet} {pre vals : List VocabValue} {hs : List (Nat × Nat)}
    (h : hashAll alphabet pre.length vals = .ok hs) (k : Nat) :
    resolveAll (pre ++ vals) (idsFor k hs) =
      .ok (vals.filter fun v => v.vocabtype.indexed && decide (anahash alphabet v.text = .ok k)) := by
  induction vals generalizing pre hs with
  | nil => cases h; rfl
  | cons v vals ih =>
    have hc : v.vocabtype.check .INDEXED = v.vocabtype.indexed := by
      obtain ⟨a, b, c⟩ := v.vocabtype
      cases a <;> cases b <;> cases c <;> rfl
    have hpre : pre ++ v :: vals = (pre ++ [v]) ++ vals := by simp
    have hlen : (pre ++ [v]).length = pre.length + 1 := by simp
    simp only [hashAll, hc] at h
    rw [List.filter_cons]
    split at h
    · next hi =>
      simp only [bind_ok, pure_ok] at h
      obtain ⟨hv, h1, hs', h2, rfl⟩ := h
      have := ih (pre := pre ++ [v]) (by rw [hlen]; exact h2)
      rw [← hpre] at this
      rw [idsFor_cons, h1, hi]
      simp only [Bool.true_and, Except.ok.injEq]
      by_cases e : hv = k
      · subst e
        simp only [if_true, decide_true, resolveAll]
        have hget : (pre ++ v :: vals)[pre.length]? = some v := by simp
        rw [hget]
        simp only [this]
        rfl
      · simp only [e, if_false, decide_false]
        simpa using this
    · next hi =>
      have := ih (pre := pre ++ [v]) (by rw [hlen]; exact h)
      rw [← hpre] at this
      rw [this]
      simp [hi]

theorem hashAll_total {alphabet : Alphabet} (hne : NoEmpty alphabet) (hlen : alphabet.length ≤ 167)
    (vals : List VocabValue) (k : Nat) : ∃ hs, hashAll alphabet k vals = .ok hs := by
  induction vals generalizing k with
  | nil => exact ⟨[], rfl⟩
  | cons v vals ih =>
    simp only [hashAll]
    obtain ⟨hs, h⟩ := ih (k + 1)
    split
    · obtain ⟨codes, hc⟩ := encodes_exists hne alphabet.length v.text
      exact ⟨(bagValue codes, k) :: hs, by rw [anahash_eq hlen hc, h]; rfl⟩
    · exact ⟨hs, h⟩

/-- every hashed value comes from an indexed entry -/
theorem hashAll_mem {alphabet : Alphabet} {vals : List VocabValue} {k : Nat}
    {hs : List (Nat × Nat)} (h : hashAll alphabet k vals = .ok hs) {x : Nat × Nat} (hx : x ∈ hs) :
    ∃ j v, x.2 = k + j ∧ vals[j]? = some v ∧ v.vocabtype.indexed = true ∧
      anahash alphabet v.text = .ok x.1 := by
  induction vals generalizing k hs with
  | nil => cases h; cases hx
  | cons v vals ih =>
    have hc : v.vocabtype.check .INDEXED = v.vocabtype.indexed := by
      obtain ⟨a, b, c⟩ := v.vocabtype
      cases a <;> cases b <;> cases c <;> rfl
    simp only [hashAll, hc] at h
    split at h
    · next hi =>
      simp only [bind_ok, pure_ok] at h
      obtain ⟨hv, h1, hs', h2, rfl⟩ := h
      rcases List.mem_cons.mp hx with rfl | hx
      · exact ⟨0, v, rfl, rfl, hi, h1⟩
      · obtain ⟨j, w, e, g1, g2, g3⟩ := ih h2 hx
        exact ⟨j + 1, w, by omega, by simpa using g1, g2, g3⟩
    · obtain ⟨j, w, e, g1, g2, g3⟩ := ih h hx
      exact ⟨j + 1, w, by omega, by simpa using g1, g2, g3⟩

/-- and the other way round -/
theorem hashAll_complete {alphabet : Alphabet} {vals : List VocabValue} {k : Nat}
    {hs : List (Nat × Nat)} (h : hashAll alphabet k vals = .ok hs) {j : Nat} {v : VocabValue}
    (hj : vals[j]? = some v) (hi : v.vocabtype.indexed = true) :
    ∃ hv, anahash alphabet v.text = .ok hv ∧ (hv, k + j) ∈ hs := by
  induction vals generalizing k hs j with
  | nil => simp at hj
  | cons w vals ih =>
    have hc : w.vocabtype.check .INDEXED = w.vocabtype.indexed := by
      obtain ⟨a, b, c⟩ := w.vocabtype
      cases a <;> cases b <;> cases c <;> rfl
    simp only [hashAll, hc] at h
    cases j with
    | zero =>
      simp only [List.getElem?_cons_zero, Option.some.injEq] at hj
      subst hj
      rw [if_pos hi] at h
      simp only [bind_ok, pure_ok] at h
      obtain ⟨hv, h1, hs', h2, rfl⟩ := h
      exact ⟨hv, h1, by simp⟩
    | succ j =>
      simp only [List.getElem?_cons_succ] at hj
      split at h
      · simp only [bind_ok, pure_ok] at h
        obtain ⟨hv, h1, hs', h2, rfl⟩ := h
        obtain ⟨hw, g1, g2⟩ := ih h2 hj
        refine ⟨hw, g1, ?_⟩
        rw [show k + (j + 1) = k + 1 + j by omega]
        exact List.mem_cons_of_mem _ g2
      · obtain ⟨hw, g1, g2⟩ := ih h hj
        refine ⟨hw, g1, ?_⟩
        rw [show k + (j + 1) = k + 1 + j by omega]
        exact g2

theorem mem_idsFor {k id : Nat} {hs : List (Nat × Nat)} : id ∈ idsFor k hs ↔ (k, id) ∈ hs := by
  simp only [idsFor, List.mem_map, List.mem_filter, decide_eq_true_eq]
  constructor
  · rintro ⟨⟨a, b⟩, ⟨h1, h2⟩, rfl⟩
    simp only at h2; subst h2; exact h1
  · intro h; exact ⟨(k, id), ⟨h, rfl⟩, rfl⟩

/-- What `buildIndex` computes, in terms of the list of hashes. -/
theorem buildIndex_spec {m m' : Vm} {o : Orders} (h : m.buildIndex o = .ok m') :
    ∃ hs, hashAll m.alphabet 0 m.decoder = .ok hs ∧ (m'.index.map Prod.fst).Nodup ∧
      m'.sortedindex = sortSecondary (fillSorted (o.index m'.index) []) ∧
      (hs ≠ [] → ∃ asz, m.alphabetSize = .ok asz ∧ fillIndex asz hs [] = .ok m'.index) ∧
      (hs = [] → m'.index = []) := by
  simp only [Vm.buildIndex, bind_ok] at h
  obtain ⟨hs, h1, h⟩ := h
  refine ⟨hs, h1, ?_⟩
  split at h
  · cases h
    have : o.index [] = [] := List.perm_nil.mp (o.index_perm [])
    exact ⟨by simp, by simp [this, fillSorted, sortSecondary], by simp, fun _ => rfl⟩
  · next hne =>
    simp only [bind_ok, pure_ok] at h
    obtain ⟨asz, ha, idx, hf, rfl⟩ := h
    refine ⟨(fillIndex_spec hf (by simp)).1, rfl, fun _ => ⟨asz, ha, hf⟩, fun e => absurd e ?_⟩
    intro e; exact hne e

/-- lookup in the index after `buildIndex` -/
theorem index_get {m m' : Vm} {o : Orders} (h : m.buildIndex o = .ok m') {k : Nat} :
    (∀ node, m'.index.get? k = some node →
      node.instances ≠ [] ∧
      resolveAll m.decoder node.instances =
        .ok (m.decoder.filter fun v => v.vocabtype.indexed &&
          decide (anahash m.alphabet v.text = .ok k)) ∧
      ∃ asz, m.alphabetSize = .ok asz ∧ charCount k asz = .ok node.charcount) ∧
    (m'.index.get? k = none → (∃ asz, m.alphabetSize = .ok asz ∧ ∀ e, charCount k asz ≠ .error e) →
      ∀ v ∈ m.decoder, v.vocabtype.indexed = true → anahash m.alphabet v.text ≠ .ok k) := by
  obtain ⟨hs, h1, _, _, h3, h4⟩ := buildIndex_spec h
  have hres := hashAll_ids (pre := []) (by simpa using h1) k
  simp only [List.nil_append] at hres
  by_cases hne : hs = []
  · rw [h4 hne]
    refine ⟨fun node hn => by simp [HMap.get?] at hn, ?_⟩
    intro _ _ v hv hi ha
    obtain ⟨j, hj⟩ := List.mem_iff_getElem?.mp hv
    obtain ⟨_, _, hm⟩ := hashAll_complete h1 hj hi
    rw [hne] at hm; cases hm
  · obtain ⟨asz, ha, hf⟩ := h3 hne
    have hg := (fillIndex_spec hf (by simp)).2 k
    simp only [HMap.get?] at hg
    constructor
    · intro node hn
      rw [hn] at hg
      split at hg
      · cases hg
      · next i is he =>
        split at hg
        · next cc hcc =>
          simp only [Option.some.injEq] at hg
          subst hg
          exact ⟨by simp, by rw [← he]; exact hres, asz, ha, hcc⟩
        · cases hg
    · rintro hn ⟨asz', ha', hcc⟩ v hv hi hh
      rw [ha] at ha'; cases ha'
      obtain ⟨j, hj⟩ := List.mem_iff_getElem?.mp hv
      obtain ⟨hv', e, hm⟩ := hashAll_complete h1 hj hi
      rw [hh] at e; cases e
      rw [hn] at hg
      split at hg
      · next he =>
        have := mem_idsFor.mpr hm
        rw [he] at this; cases this
      · split at hg
        · cases hg
        · next e he => exact hcc e he

/-! ## The secondary index -/

theorem fillSorted_get (l : List (Nat × AnaIndexNode)) (s : HMap Nat (List Nat)) (n : Nat) :
    (fillSorted l s).get? n =
      match s.get? n, (l.filter (fun x => x.2.charcount = n)).map Prod.fst with
      | some old, hs => some (old ++ hs)
      | none, [] => none
      | none, h :: hs => some (h :: hs) := by
  induction l generalizing s with
  | nil =>
    simp only [fillSorted, List.filter_nil, List.map_nil]
    cases s.get? n <;> simp
  | cons x l ih =>
    obtain ⟨h, node⟩ := x
    simp only [fillSorted, ih, get?_insert, List.filter_cons]
    by_cases e : node.charcount = n
    · subst e
      cases hs : s.get? node.charcount <;> simp
    · simp [e]

theorem sorted_get {idx : List (Nat × AnaIndexNode)} (o : Orders) (n : Nat) :
    (sortSecondary (fillSorted (o.index idx) [])).get? n =
      match ((idx.filter (fun x => x.2.charcount = n)).map Prod.fst) with
      | [] => none
      | h :: hs => some ((h :: hs).insertionSort (· ≤ ·)) := by
  have hm := get?_map_values (fillSorted (o.index idx) [])
    (fun l : List Nat => l.insertionSort (· ≤ ·)) n
  unfold sortSecondary
  refine Eq.trans hm ?_
  rw [fillSorted_get]
  simp only [HMap.get?]
  have hp : (((o.index idx).filter (fun x => x.2.charcount = n)).map Prod.fst).Perm
      ((idx.filter (fun x => x.2.charcount = n)).map Prod.fst) :=
    ((o.index_perm idx).filter _).map _
  generalize ((o.index idx).filter (fun x => x.2.charcount = n)).map Prod.fst = a at hp ⊢
  generalize (idx.filter (fun x => x.2.charcount = n)).map Prod.fst = b at hp ⊢
  cases b with
  | nil => rw [List.perm_nil.mp hp]; rfl
  | cons y ys =>
    cases a with
    | nil => exact absurd hp.symm (by simp)
    | cons x xs =>
      simp only [Option.map_some, Option.some.injEq]
      have h1 := List.perm_insertionSort (α := Nat) (· ≤ ·) (x :: xs)
      have h2 := List.perm_insertionSort (α := Nat) (· ≤ ·) (y :: ys)
      exact List.Perm.eq_of_pairwise (fun a b _ _ h h' => Nat.le_antisymm h h')
        (List.pairwise_insertionSort (α := Nat) (· ≤ ·) (x :: xs))
        (List.pairwise_insertionSort (α := Nat) (· ≤ ·) (y :: ys))
        ((h1.trans hp).trans h2.symm)

end Verif.Lemmas
