import Verif.Lemmas.Build

/-! # What a built model contains -/
namespace Verif.Lemmas

open Verif.Spec Verif.Model

/-- Entries other than the reserved ones carry the normal form of their text. -/
def NormInv (m : Vm) : Prop :=
  ∀ (i : Nat) (v : VocabValue), m.decoder[i]? = some v → 3 ≤ i →
    normalizeToAlphabet m.alphabet v.text = .ok v.norm

theorem normInv_new (alphabet : Alphabet) : NormInv (Vm.new alphabet) := by
  intro i v hv hi
  match i, hi with
  | i + 3, _ => simp [Vm.new] at hv

theorem normInv_set {m : Vm} (h : NormInv m) {i : Nat} {v v' : VocabValue}
    (hv : m.decoder[i]? = some v) (ht : v'.text = v.text) (hn : v'.norm = v.norm) :
    NormInv { m with decoder := m.decoder.set i v' } := by
  intro j w hw hj
  simp only at hw ⊢
  by_cases e : i = j
  · subst e
    rw [getElem?_set_self' hv] at hw
    cases hw
    rw [ht, hn]; exact h i v hv hj
  · rw [List.getElem?_set_ne e] at hw
    exact h j w hw hj

theorem normInv_add {m m' : Vm} {text : List Char} {f : Option Nat} {p : VocabParams} {id : Nat}
    (hinv : NormInv m) (h : m.addToVocabulary text f p = .ok (m', id)) : NormInv m' := by
  rcases add_cases h with ⟨item, freq, he, hd, _, _, rfl⟩ | ⟨norm, he, rfl, _, hn, hs, rfl⟩
  · exact normInv_set hinv hd rfl rfl
  · intro j w hw hj
    simp only at hw ⊢
    rcases Nat.lt_or_ge j m.decoder.length with hl | hl
    · rw [List.getElem?_append_left hl] at hw
      exact hinv j w hw hj
    · rw [List.getElem?_append_right hl] at hw
      rcases List.mem_singleton.mp (List.mem_of_getElem? hw) with rfl
      exact hn

theorem normInv_core {m : Vm} (hinv : NormInv m) {d : List VocabValue}
    (h : ∀ (i : Nat) (w' : VocabValue), d[i]? = some w' → ∃ w, m.decoder[i]? = some w ∧ SameCore w' w) :
    NormInv { m with decoder := d } := by
  intro j w hw hj
  obtain ⟨v, hv, hc⟩ := h j w hw
  simp only
  rw [hc.text, hc.norm]; exact hinv j v hv hj

theorem normInv_addVariantById {m : Vm} (hinv : NormInv m) (r v : Nat) (s : Rat) :
    NormInv (m.addVariantById r v s).1 := by
  obtain ⟨h1, h2, h3⟩ := addVariantById_core m r v s
  rw [h1]
  exact normInv_core hinv h3

theorem normInv_build {m m' : Vm} {o : Orders} (hinv : NormInv m) (h : m.build o = .ok m') :
    NormInv m' := by
  obtain ⟨_, _, _, _, e1, _, e2⟩ := build_index h
  unfold NormInv
  rw [e1, e2]; exact hinv

theorem normInv_learnLoop {m m' : Vm} {fs : List Finding} {prev : Option (List Char)} {c c' : Nat}
    (hinv : NormInv m) (h : m.learnLoop fs prev c = .ok (m', c')) : NormInv m' := by
  induction fs generalizing m prev c with
  | nil => cases h; exact hinv
  | cons f fs ih =>
    simp only [Vm.learnLoop, bind_ok] at h
    obtain ⟨⟨m1, id⟩, h1, h2⟩ := h
    have a1 : NormInv m1 := by
      unfold Vm.learnId at h1
      split at h1
      · split at h1
        · cases h1
        · next item hitem =>
          split at h1
          · split at h1
            · cases h1
            · cases h1
              exact normInv_set hinv hitem rfl rfl
          · cases h1; exact hinv
      · exact normInv_add hinv h1
    split at h2
    · exact ih (normInv_addVariantById a1 f.vocabId id f.distScore) h2
    · exact ih a1 h2

theorem normInv_step {m m' : Vm} {op : Op} (hinv : NormInv m) (h : m.step op = .ok m') :
    NormInv m' := by
  cases op with
  | add t f p =>
    simp only [Vm.step, bind_ok, pure_ok] at h
    obtain ⟨⟨m1, id⟩, h1, rfl⟩ := h
    exact normInv_add hinv h1
  | addVariant r t s f p =>
    simp only [Vm.step, Vm.addVariant, bind_ok, pure_ok] at h
    obtain ⟨⟨m2, x⟩, ⟨⟨m1, id⟩, h1, h2⟩, rfl⟩ := h
    have c := normInv_addVariantById (normInv_add hinv h1) r id s
    simp only at h2
    rw [h2] at c
    exact c
  | addVariantById r v s =>
    simp only [Vm.step, Except.ok.injEq] at h
    subst h
    exact normInv_addVariantById hinv r v s
  | build o => exact normInv_build hinv h
  | learn fs ab o =>
    simp only [Vm.step, Vm.learnVariants, bind_ok, pure_ok] at h
    obtain ⟨⟨m2, c⟩, ⟨⟨m1, c1⟩, h1, h2⟩, rfl⟩ := h
    have a1 := normInv_learnLoop hinv h1
    split at h2
    · simp only [bind_ok, pure_ok, Prod.mk.injEq] at h2
      obtain ⟨m3, h3, rfl, _⟩ := h2
      exact normInv_build a1 h3
    · cases h2; exact a1
  | freq => cases h; exact hinv
  | lexicon n => cases h; exact hinv

theorem normInv_run {m m' : Vm} {ops : List Op} (hinv : NormInv m) (h : m.run ops = .ok m') :
    NormInv m' := by
  induction ops generalizing m with
  | nil => cases h; exact hinv
  | cons op ops ih =>
    simp only [Vm.run, bind_ok] at h
    obtain ⟨m1, h1, h2⟩ := h
    exact ih (normInv_step hinv h1) h2

theorem run_append {m m' : Vm} {ops ops' : List Op} :
    m.run (ops ++ ops') = .ok m' ↔ ∃ m1, m.run ops = .ok m1 ∧ m1.run ops' = .ok m' := by
  induction ops generalizing m with
  | nil => simp [Vm.run]
  | cons op ops ih =>
    simp only [List.cons_append, Vm.run, bind_ok, ih]
    constructor
    · rintro ⟨a, h1, b, h2, h3⟩; exact ⟨b, ⟨a, h1, h2⟩, h3⟩
    · rintro ⟨b, ⟨a, h1, h2⟩, h3⟩; exact ⟨a, h1, b, h2, h3⟩

theorem hashAll_pairwise {alphabet : Alphabet} {vals : List VocabValue} {k : Nat}
    {hs : List (Nat × Nat)} (h : hashAll alphabet k vals = .ok hs) :
    (hs.map Prod.snd).Pairwise (· < ·) ∧ ∀ x ∈ hs, k ≤ x.2 := by
  induction vals generalizing k hs with
  | nil => cases h; simp
  | cons v vals ih =>
    simp only [hashAll] at h
    split at h
    · simp only [bind_ok, pure_ok] at h
      obtain ⟨hv, h1, hs', h2, rfl⟩ := h
      obtain ⟨a, b⟩ := ih h2
      refine ⟨?_, ?_⟩
      · rw [List.map_cons, List.pairwise_cons]
        refine ⟨?_, a⟩
        intro y hy
        obtain ⟨x, hx, rfl⟩ := List.mem_map.mp hy
        have := b x hx
        simp only; omega
      · intro x hx
        rcases List.mem_cons.mp hx with rfl | hx
        · exact le_rfl
        · have := b x hx; omega
    · obtain ⟨a, b⟩ := ih h
      exact ⟨a, fun x hx => by have := b x hx; omega⟩

/-- What the index and the vocabulary of a built model look like. -/
structure Built (alphabet : Alphabet) (m : Vm) : Prop where
  alpha : m.alphabet = alphabet
  inv : Inv m
  norm : NormInv m
  /-- a node of the index lists exactly the ids of the indexed entries with this value -/
  node : ∀ k node, m.index.get? k = some node →
    node.instances ≠ [] ∧ node.instances.Pairwise (· < ·) ∧
    (∀ id, id ∈ node.instances ↔ ∃ v, m.decoder[id]? = some v ∧ v.vocabtype.indexed = true ∧
      anahash alphabet v.text = .ok k) ∧
    ∃ asz, m.alphabetSize = .ok asz ∧ charCount k asz = .ok node.charcount
  /-- every indexed entry is there -/
  complete : ∀ (id : Nat) v, m.decoder[id]? = some v → v.vocabtype.indexed = true →
    ∃ k node, anahash alphabet v.text = .ok k ∧ m.index.get? k = some node
  /-- the secondary index lists the values by number of symbols -/
  sorted : ∀ n k, (∃ keys, m.sortedindex.get? n = some keys ∧ k ∈ keys) ↔
    ∃ node, m.index.get? k = some node ∧ node.charcount = n

theorem built_of_build {m m' : Vm} {o : Orders} (hinv : Inv m) (hnorm : NormInv m)
    (h : m.build o = .ok m') : Built m.alphabet m' := by
  obtain ⟨m1, h1, e1, e1', e2, _, e3⟩ := build_index h
  obtain ⟨hs, hh, hnd, hsrt, hf, he⟩ := buildIndex_spec h1
  have hnodes : ∀ k, m'.index.get? k = match idsFor k hs with
        | [] => none
        | i :: is => match m.alphabetSize with
          | .error _ => none
          | .ok asz => match charCount k asz with
            | .ok cc => some ⟨i :: is, cc⟩
            | .error _ => none := by
    intro k
    rw [e1]
    by_cases hnil : hs = []
    · rw [he hnil, hnil]; rfl
    · obtain ⟨asz, ha, hfill⟩ := hf hnil
      have := (fillIndex_spec hfill (by simp)).2 k
      rw [this, ha]; rfl
  have hpw := hashAll_pairwise hh
  refine ⟨e3, (inv_build hinv h).1, normInv_build hnorm h, ?_, ?_, ?_⟩
  · intro k node hk
    rw [hnodes k] at hk
    split at hk
    · cases hk
    · next i is hids =>
      split at hk
      · cases hk
      · next asz ha =>
        split at hk
        · next cc hcc =>
          cases hk
          have hsz : m'.alphabetSize = .ok asz := by
            simp only [Vm.alphabetSize, e3]; exact ha
          refine ⟨by simp, ?_, ?_, asz, hsz, hcc⟩
          · simp only
            rw [← hids]
            exact hpw.1.sublist (List.Sublist.map _ List.filter_sublist)
          · intro id
            simp only
            rw [← hids, mem_idsFor, e2]
            constructor
            · intro hx
              obtain ⟨j, v, hj, hv, hx1, hx2⟩ := hashAll_mem hh hx
              simp only [Nat.zero_add] at hj hx2
              subst hj
              exact ⟨v, hv, hx1, hx2⟩
            · rintro ⟨v, hv, hx1, hx2⟩
              obtain ⟨hv', g1, g2⟩ := hashAll_complete hh hv hx1
              rw [hx2] at g1
              cases g1
              simpa using g2
        · cases hk
  · intro id v hv hi
    rw [e2] at hv
    obtain ⟨k, g1, g2⟩ := hashAll_complete hh hv hi
    simp only [Nat.zero_add] at g2
    have hnil : hs ≠ [] := by rintro rfl; cases g2
    obtain ⟨asz, ha, hfill⟩ := hf hnil
    have hkeys : ∀ (hs : List (Nat × Nat)) (idx idx' : HMap Nat AnaIndexNode),
        fillIndex asz hs idx = .ok idx' →
        (∀ x ∈ hs, (idx'.get? x.1).isSome) ∧ ∀ k, (idx.get? k).isSome → (idx'.get? k).isSome := by
      intro hs
      induction hs with
      | nil => intro idx idx' h; cases h; exact ⟨by simp, fun _ h => h⟩
      | cons x hs ih =>
        intro idx idx' h
        obtain ⟨a, b⟩ := x
        simp only [fillIndex, bind_ok] at h
        obtain ⟨idx1, h1, h2⟩ := h
        obtain ⟨p, q⟩ := ih idx1 idx' h2
        have : (idx1.get? a).isSome ∧ ∀ k, (idx.get? k).isSome → (idx1.get? k).isSome := by
          unfold indexAdd at h1
          split at h1
          · cases h1
            refine ⟨by simp [get?_insert], fun k hk => ?_⟩
            rw [get?_insert]; split <;> simp_all
          · simp only [bind_ok, pure_ok] at h1
            obtain ⟨cc, hcc, rfl⟩ := h1
            refine ⟨by simp [get?_insert], fun k hk => ?_⟩
            rw [get?_insert]; split <;> simp_all
        refine ⟨?_, fun k hk => q k (this.2 k hk)⟩
        intro y hy
        rcases List.mem_cons.mp hy with rfl | hy
        · exact q _ this.1
        · exact p y hy
    have := (hkeys hs [] m1.index hfill).1 _ g2
    rw [← e1] at this
    obtain ⟨node, hnode⟩ := Option.isSome_iff_exists.mp this
    exact ⟨k, node, g1, hnode⟩
  · intro n k
    have hget : m'.sortedindex.get? n =
        match ((m'.index.filter (fun x => x.2.charcount = n)).map Prod.fst) with
        | [] => none
        | h :: hs => some ((h :: hs).insertionSort (· ≤ ·)) := by
      rw [e1', hsrt, sorted_get, e1]; rfl
    have hmem : k ∈ (m'.index.filter (fun x => x.2.charcount = n)).map Prod.fst ↔
        ∃ node, m'.index.get? k = some node ∧ node.charcount = n := by
      simp only [List.mem_map, List.mem_filter, decide_eq_true_eq]
      constructor
      · rintro ⟨⟨a, b⟩, ⟨h1, h2⟩, rfl⟩
        exact ⟨b, get?_of_mem (by rw [e1]; exact hnd) h1, h2⟩
      · rintro ⟨node, h1, h2⟩
        exact ⟨(k, node), ⟨mem_of_get? h1, h2⟩, rfl⟩
    rw [← hmem, hget]
    constructor
    · rintro ⟨keys, hk, hkk⟩
      split at hk
      · cases hk
      · next a as ha =>
        cases hk
        have := (List.perm_insertionSort (· ≤ ·) (a :: as)).mem_iff.mp hkk
        rwa [ha]
    · intro hk
      split
      · next ha => rw [ha] at hk; cases hk
      · next a as ha =>
        rw [ha] at hk
        exact ⟨_, rfl, (List.perm_insertionSort (· ≤ ·) (a :: as)).mem_iff.mpr hk⟩

/-- A history that ends in `build` gives a built model. -/
theorem built_of_run {alphabet : Alphabet} {ops : List Op} {o : Orders} {m : Vm}
    (h : (Vm.new alphabet).run (ops ++ [.build o]) = .ok m) : Built alphabet m := by
  obtain ⟨m0, h0, h1⟩ := run_append.mp h
  simp only [Vm.run, Vm.step, bind_ok] at h1
  obtain ⟨m1, h1, h2⟩ := h1
  cases h2
  have hinv := inv_run (inv_new alphabet) h0
  have := built_of_build hinv.1 (normInv_run (normInv_new alphabet) h0) h1
  rwa [show m0.alphabet = alphabet from hinv.2.1] at this

end Verif.Lemmas
