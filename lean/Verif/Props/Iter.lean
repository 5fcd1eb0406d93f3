import Verif.Model.Iter
import Verif.Lemmas.Dfs
import Verif.Props.Anahash

/-! # C79: every mode of the recursive deletion iterator -/
namespace Verif.Props

open Verif.Spec Verif.Model Verif.Lemmas

theorem yields_iff {asz : Nat} {p : SearchParams} {n d : Nat} :
    Yields (recursiveCfg asz p) n d ↔ p.minDistance.getD 1 ≤ d ∧
      (p.allowEmptyLeaves = true ∨ n ≠ 0) ∧ ∀ k, p.maxDistance = some k → d ≤ k := Iff.rfl

/-- Without duplicates: the values of exactly the bags that arise from deleting as many symbols as
allowed, each once, with the number of deletions; breadth first in the order of that number. -/
theorem iter_recursive_unique (a : List Nat) (asz : Nat) (p : SearchParams) (hasz : asz ≤ 168)
    (ha : Within asz a) (hp : p.allowDuplicates = false) :
    ∃ items : List IterItem,
      (∃ N, ∀ fuel, N ≤ fuel →
        iterCollect (recursiveCfg asz p) fuel (iterInit (bagValue a)) = some (.ok items)) ∧
      (∀ v d, (∃ c, ((⟨v, c⟩ : DeletionResult), d) ∈ items) ↔
        ∃ b r : List Nat, (b ++ r).Perm a ∧ (p.allowEmptyLeaves = true ∨ b ≠ []) ∧ v = bagValue b ∧
          d = r.length ∧ p.minDistance.getD 1 ≤ d ∧ ∀ k, p.maxDistance = some k → d ≤ k) ∧
      (items.map fun x => x.1.value).Nodup ∧
      (p.breadthfirst = true → items.Pairwise (fun x y => x.2 ≤ y.2)) := by
  have hw : Within 168 a := Within.mono ha hasz
  have hu : (recursiveCfg asz p).unique = true := by simp [recursiveCfg, hp]
  have hd0 : DepthOk (recursiveCfg asz p) 0 := fun _ _ => Nat.zero_le _
  -- both searches give a list with these four properties
  have finish : ∀ (items : List IterItem) (V' : List Nat),
      Runs (recursiveCfg asz p) (iterInit (bagValue a)) items ⟨[], V'⟩ →
      (items.map fun x => x.1.value).Nodup →
      (∀ x ∈ items, ∃ C : List Nat, C.Subperm a ∧ C.length + x.2 = a.length ∧
        x.1.value = bagValue C ∧ Yields (recursiveCfg asz p) C.length x.2) →
      (∀ C : List Nat, C.Subperm a → Yields (recursiveCfg asz p) C.length (a.length - C.length) →
        ∃ x ∈ items, x.1.value = bagValue C) →
      (p.breadthfirst = true → items.Pairwise (fun x y => x.2 ≤ y.2)) →
      ∃ items : List IterItem,
        (∃ N, ∀ fuel, N ≤ fuel →
          iterCollect (recursiveCfg asz p) fuel (iterInit (bagValue a)) = some (.ok items)) ∧
        (∀ v d, (∃ c, ((⟨v, c⟩ : DeletionResult), d) ∈ items) ↔
          ∃ b r : List Nat, (b ++ r).Perm a ∧ (p.allowEmptyLeaves = true ∨ b ≠ []) ∧ v = bagValue b ∧
            d = r.length ∧ p.minDistance.getD 1 ≤ d ∧ ∀ k, p.maxDistance = some k → d ≤ k) ∧
        (items.map fun x => x.1.value).Nodup ∧
        (p.breadthfirst = true → items.Pairwise (fun x y => x.2 ≤ y.2)) := by
    intro items V' hrun hnd hsound hcomplete hord
    refine ⟨items, hrun.collect ?_, ?_, hnd, hord⟩
    · unfold iterStep iterStepBfs iterStepDfs
      split <;> rfl
    · intro v d
      constructor
      · rintro ⟨c, hx⟩
        obtain ⟨C, hC, hl, hv, hy⟩ := hsound _ hx
        simp only at hl hv hy
        obtain ⟨r, hr⟩ := subperm_exists_append hC
        have := hr.length_eq
        rw [List.length_append] at this
        obtain ⟨h1, h2, h3⟩ := yields_iff.mp hy
        refine ⟨C, r, hr, ?_, hv, by omega, h1, h3⟩
        exact h2.imp id (fun h e => h (by rw [e]; rfl))
      · rintro ⟨b, r, hbr, hne, rfl, rfl, h1, h3⟩
        have hsub : b.Subperm a := (List.sublist_append_left b r).subperm.trans hbr.subperm
        have hl := hbr.length_eq
        rw [List.length_append] at hl
        have hd : a.length - b.length = r.length := by omega
        obtain ⟨⟨⟨v, c⟩, d⟩, hx, hxv⟩ := hcomplete b hsub (by
          rw [hd, yields_iff]
          exact ⟨h1, hne.imp id (fun h e => h (List.length_eq_zero_iff.mp e)), h3⟩)
        simp only at hxv
        subst hxv
        obtain ⟨C, hC, hCl, hCv, _⟩ := hsound _ hx
        simp only at hCl hCv
        have := ((bagValue_inj (within_of_subperm hsub hw) (within_of_subperm hC hw)).mp hCv).length_eq
        have : d = r.length := by omega
        exact ⟨c, this ▸ hx⟩
  by_cases hb : p.breadthfirst = true
  · have hc : WideCfg (recursiveCfg asz p) := ⟨hb, hasz⟩
    obtain ⟨out, V', hr, h1, h2, h3, h4⟩ := wide_levels hc hu (A := a) ha (a.length + 1) 0
      [(⟨bagValue a, 0⟩, 0)] [] (by omega)
      (by
        intro x hx
        rw [List.mem_singleton] at hx
        subst hx
        exact ⟨rfl, hd0, a, .refl _, rfl, rfl⟩)
      (by
        intro C hC hl _
        exact ⟨(⟨bagValue a, 0⟩, 0), by simp, bagValue_perm (hC.perm_of_length_le (by omega)).symm⟩)
      (fun C _ h => absurd h List.not_mem_nil)
    refine finish out V' hr h1 (fun x hx => (h2 x hx).2.2) ?_ (fun _ => h4)
    intro C hC hy
    exact h3 C hC (by have := hC.length_le; omega) hy
  · have hc : DfsCfg (recursiveCfg asz p) := ⟨by simpa [recursiveCfg] using hb, rfl, hasz⟩
    obtain ⟨out, V', hr, ho⟩ := dfs_node hc hu a.length ha a (.refl _) [] 0 0 [] (by omega) hd0
      (fun P _ _ h => absurd h List.not_mem_nil) List.not_mem_nil
    refine finish out V' hr ho.nodup ?_ ?_ (fun h => absurd h hb)
    · exact ho.sound
    · intro C hC hy
      rcases (ho.visited _).mp (ho.complete C hC hy) with h | h
      · cases h
      · exact h

example : ∃ items : List IterItem,
    (∃ N, ∀ fuel, N ≤ fuel → iterCollect (recursiveCfg 3
      { SearchParams.default with minDistance := some 2, allowDuplicates := false }) fuel
      (iterInit (bagValue [2, 0, 2])) = some (.ok items)) ∧
    (∃ c, ((⟨bagValue [], c⟩ : DeletionResult), 3) ∈ items) := by
  obtain ⟨items, h, hm, _⟩ := iter_recursive_unique [2, 0, 2] 3
    { SearchParams.default with minDistance := some 2, allowDuplicates := false }
    (by decide) (by decide) rfl
  exact ⟨items, h, (hm _ _).mpr ⟨[], [2, 0, 2], by decide, .inl rfl, rfl, rfl, by decide,
    fun k hk => by cases hk⟩⟩

/-- With duplicates: one item for every order in which allowed numbers of symbols can be deleted, each
order once.  Depth first: an order comes before its continuations, and among orders that part at some
point the one that deletes the larger symbol comes first.  Breadth first: fewer deletions come first,
then larger symbols. -/
theorem iter_recursive_ways (a : List Nat) (asz : Nat) (p : SearchParams) (hasz : asz ≤ 168)
    (ha : Within asz a) (hp : p.allowDuplicates = true) :
    ∃ ways : List (List Nat),
      (∃ N, ∀ fuel, N ≤ fuel →
        iterCollect (recursiveCfg asz p) fuel (iterInit (bagValue a)) =
          some (.ok (ways.map fun w => (⟨bagValue (a.diff w), w.getLast?.getD 0⟩, w.length)))) ∧
      (∀ w, w ∈ ways ↔ w.Subperm a ∧ (p.allowEmptyLeaves = true ∨ w.length < a.length) ∧
        p.minDistance.getD 1 ≤ w.length ∧ ∀ k, p.maxDistance = some k → w.length ≤ k) ∧
      (p.breadthfirst = false → ways.Pairwise (List.Lex (fun i j => i > j))) ∧
      (p.breadthfirst = true → ways.Pairwise (fun v w => v.length < w.length ∨
        (v.length = w.length ∧ List.Lex (fun i j => i > j) v w))) := by
  have hu : (recursiveCfg asz p).unique = false := by simp [recursiveCfg, hp]
  have hd0 : DepthOk (recursiveCfg asz p) 0 := fun _ _ => Nat.zero_le _
  have hitem : (fun w => ((⟨bagValue (a.diff w), w.getLast?.getD 0⟩, w.length) : IterItem)) =
      wayItem a 0 0 := by
    funext w; simp [wayItem]
  have hmem : ∀ w : List Nat, (w.Subperm a ∧ Yields (recursiveCfg asz p) (a.length - w.length) w.length) ↔
      (w.Subperm a ∧ (p.allowEmptyLeaves = true ∨ w.length < a.length) ∧
        p.minDistance.getD 1 ≤ w.length ∧ ∀ k, p.maxDistance = some k → w.length ≤ k) := by
    intro w
    refine and_congr_right (fun hw => ?_)
    rw [yields_iff]
    have : (a.length - w.length ≠ 0) ↔ w.length < a.length := by omega
    rw [this]
    exact ⟨fun h => ⟨h.2.1, h.1, h.2.2⟩, fun h => ⟨h.2.1, h.1, h.2.2⟩⟩
  have hdone : ∀ V, iterStep (recursiveCfg asz p) ⟨[], V⟩ = .ok .done := by
    intro V
    unfold iterStep iterStepBfs iterStepDfs
    split <;> rfl
  rw [hitem]
  by_cases hb : p.breadthfirst = true
  · have hc : WideCfg (recursiveCfg asz p) := ⟨hb, hasz⟩
    obtain ⟨out, hr, hs, hm⟩ := way_levels hc hu (A := a) ha [] 0 (a.length + 1) 0 [[]] (by omega)
      (by simp) (by
        intro q
        rw [List.mem_singleton]
        constructor
        · rintro rfl; exact ⟨List.nil_subperm, rfl, hd0⟩
        · exact fun h => List.length_eq_zero_iff.mp h.2.1)
    refine ⟨out, hr.collect (hdone _), ?_, fun h => absurd (hb.symm.trans h) (by decide), fun _ => hs⟩
    intro w
    rw [hm, ← hmem]
    exact ⟨fun h => ⟨h.1, h.2.2⟩, fun h => ⟨h.1, Nat.zero_le _, h.2⟩⟩
  · have hc : DfsCfg (recursiveCfg asz p) := ⟨by simpa [recursiveCfg] using hb, rfl, hasz⟩
    obtain ⟨out, hr, hs, hm⟩ := way_node hc hu a ha [] 0 0 [] hd0
    refine ⟨out, hr.collect (hdone _), ?_, fun _ => hs, fun h => absurd h hb⟩
    intro w
    rw [hm, ← hmem, Nat.zero_add]

example : ∃ ways : List (List Nat),
    (∃ N, ∀ fuel, N ≤ fuel → iterCollect (recursiveCfg 3 SearchParams.default) fuel
      (iterInit (bagValue [2, 0, 2])) =
        some (.ok (ways.map fun w => (⟨bagValue (([2, 0, 2] : List Nat).diff w), w.getLast?.getD 0⟩, w.length)))) ∧
    [2, 0] ∈ ways ∧ [0, 2] ∈ ways := by
  obtain ⟨ways, h, hm, _⟩ := iter_recursive_ways [2, 0, 2] 3 SearchParams.default
    (by decide) (by decide) rfl
  exact ⟨ways, h, (hm _).mpr ⟨by decide, .inl rfl, by decide, fun k hk => by cases hk⟩,
    (hm _).mpr ⟨by decide, .inl rfl, by decide, fun k hk => by cases hk⟩⟩

/-- Every order of deletions stands for the bag of the symbols that it leaves: two orders yield the same
value iff they delete the same symbols. -/
theorem ways_same_value {a v w : List Nat} (ha : Within 168 a) (hv : v.Subperm a) (hw : w.Subperm a) :
    bagValue (a.diff v) = bagValue (a.diff w) ↔ v.Perm w := by
  rw [bagValue_inj (within_of_subperm (List.diff_sublist a v).subperm ha)
    (within_of_subperm (List.diff_sublist a w).subperm ha)]
  have h1 := subperm_diff hv
  have h2 := subperm_diff hw
  constructor
  · intro h
    have := h1.trans h2.symm
    exact (List.perm_append_right_iff (a.diff w)).mp ((h.append_left v).symm.trans this)
  · intro h
    have := h1.trans h2.symm
    exact (List.perm_append_left_iff w).mp ((h.append_right (a.diff v)).symm.trans this)

example : bagValue (([2, 0, 2] : List Nat).diff [2, 0]) = bagValue (([2, 0, 2] : List Nat).diff [0, 2]) :=
  (ways_same_value (by decide) (by decide) (by decide)).mpr (by decide)

/-- Depth first, without duplicates, with a cache from elsewhere: what is not in the cache is yielded
exactly once, if the cache holds with every bag also the bags below it that the search would yield. -/
theorem iter_external_cache (a : List Nat) (asz : Nat) (p : SearchParams) (cache : List Nat)
    (hasz : asz ≤ 168) (ha : Within asz a) (hp : p.allowDuplicates = false)
    (hdfs : p.breadthfirst = false) (hroot : bagValue a ∉ cache)
    (hclosed : ∀ b c : List Nat, b.Subperm a → c.Subperm b → bagValue b ∈ cache →
      (p.allowEmptyLeaves = true ∨ c ≠ []) → p.minDistance.getD 1 ≤ a.length - c.length →
      (∀ k, p.maxDistance = some k → a.length - c.length ≤ k) → bagValue c ∈ cache) :
    ∃ items : List IterItem,
      (∃ N, ∀ fuel, N ≤ fuel →
        iterCollect (recursiveCfg asz p) fuel (iterInitCached (bagValue a) cache) = some (.ok items)) ∧
      (∀ v d, (∃ c, ((⟨v, c⟩ : DeletionResult), d) ∈ items) ↔ v ∉ cache ∧
        ∃ b r : List Nat, (b ++ r).Perm a ∧ (p.allowEmptyLeaves = true ∨ b ≠ []) ∧ v = bagValue b ∧
          d = r.length ∧ p.minDistance.getD 1 ≤ d ∧ ∀ k, p.maxDistance = some k → d ≤ k) ∧
      (items.map fun x => x.1.value).Nodup := by
  have hw : Within 168 a := Within.mono ha hasz
  have hu : (recursiveCfg asz p).unique = true := by simp [recursiveCfg, hp]
  have hd0 : DepthOk (recursiveCfg asz p) 0 := fun _ _ => Nat.zero_le _
  have hc : DfsCfg (recursiveCfg asz p) := ⟨hdfs, rfl, hasz⟩
  obtain ⟨out, V', hr, ho⟩ := dfs_node hc hu a.length ha a (.refl _) cache 0 0 [] (by omega) hd0
    (by
      intro P hP _ hm D hD hy
      obtain ⟨h1, h2, h3⟩ := yields_iff.mp hy
      exact hclosed P D hP hD hm (h2.imp id (fun h e => h (by rw [e]; rfl))) h1 h3) hroot
  refine ⟨out, hr.collect ?_, ?_, ho.nodup⟩
  · unfold iterStep iterStepBfs iterStepDfs
    split <;> rfl
  · intro v d
    constructor
    · rintro ⟨c, hx⟩
      obtain ⟨C, hC, hl, hv, hy⟩ := ho.sound _ hx
      have hf := ho.fresh _ hx
      simp only at hl hv hy hf
      obtain ⟨r, hr⟩ := subperm_exists_append hC
      have := hr.length_eq
      rw [List.length_append] at this
      obtain ⟨h1, h2, h3⟩ := yields_iff.mp hy
      exact ⟨hf, C, r, hr, h2.imp id (fun h e => h (by rw [e]; rfl)), hv, by omega, h1, h3⟩
    · rintro ⟨hf, b, r, hbr, hne, rfl, rfl, h1, h3⟩
      have hsub : b.Subperm a := (List.sublist_append_left b r).subperm.trans hbr.subperm
      have hl := hbr.length_eq
      rw [List.length_append] at hl
      have hd : a.length - b.length = r.length := by omega
      have hm := ho.complete b hsub (by
        rw [hd, yields_iff]
        exact ⟨h1, hne.imp id (fun h e => h (List.length_eq_zero_iff.mp e)), h3⟩)
      rcases (ho.visited _).mp hm with h | ⟨⟨⟨v, c⟩, d⟩, hx, hxv⟩
      · exact absurd h hf
      simp only at hxv
      subst hxv
      obtain ⟨C, hC, hCl, hCv, _⟩ := ho.sound _ hx
      simp only at hCl hCv
      have := ((bagValue_inj (within_of_subperm hsub hw) (within_of_subperm hC hw)).mp hCv).length_eq
      have : d = r.length := by omega
      exact ⟨c, this ▸ hx⟩

/-- Depth first, without duplicates, at most `k` deletions. -/
def dfsParams (k : Nat) : SearchParams :=
  { SearchParams.default with maxDistance := some k, allowDuplicates := false }

example : ∃ items : List IterItem,
    (∃ N, ∀ fuel, N ≤ fuel → iterCollect (recursiveCfg 3 (dfsParams 2)) fuel
      (iterInitCached (bagValue [0, 1, 2]) [bagValue [0]]) = some (.ok items)) ∧
    (∃ c, ((⟨bagValue [1, 2], c⟩ : DeletionResult), 1) ∈ items) ∧
    ¬ ∃ c, ((⟨bagValue [0], c⟩ : DeletionResult), 2) ∈ items := by
  obtain ⟨items, h, hm, _⟩ := iter_external_cache [0, 1, 2] 3 (dfsParams 2) [bagValue [0]]
    (by decide) (by decide) rfl rfl (by decide) (by
      intro b c hb hcb hm _ _ h3
      have hb0 : b.Perm [0] := (bagValue_inj (within_of_subperm hb (by decide)) (by decide)).mp
        (List.mem_singleton.mp hm)
      have h2 := h3 2 rfl
      have h4 := hcb.length_le
      have h5 := hb0.length_eq
      simp only [List.length_cons, List.length_nil] at h2 h5
      rw [List.mem_singleton]
      exact bagValue_perm ((hcb.perm_of_length_le (by omega)).trans hb0))
  refine ⟨items, h, (hm _ _).mpr ⟨by decide, [1, 2], [0], by decide, .inl rfl, rfl, rfl, by decide,
    fun k hk => by cases hk; decide⟩, fun h => ((hm _ _).mp h).1 (by simp)⟩

/-- A cache that lacks the bags below what it holds, such as one left by a search with fewer deletions,
hides them: deleting two of three symbols no longer finds the part that is left. -/
theorem shallow_cache_hides :
    (∃ items, iterCollect (recursiveCfg 3 (dfsParams 1)) 100 (iterInit (bagValue [0, 1, 2])) =
      some (.ok items) ∧ ∀ v ∈ [bagValue [0, 1], bagValue [0, 2], bagValue [1, 2]],
        v ∈ items.map fun x => x.1.value) ∧
    iterCollect (recursiveCfg 3 (dfsParams 2)) 100
      (iterInitCached (bagValue [0, 1, 2]) [bagValue [0, 1], bagValue [0, 2], bagValue [1, 2]]) =
        some (.ok []) ∧
    [0].Subperm [0, 1, 2] := by
  refine ⟨⟨_, rfl, by decide +kernel⟩, rfl, by decide⟩

end Verif.Props
