import Verif.Props.Iter

/-!
# What an external cache holds after an iteration (C79)
-/
namespace Verif.Props
open Verif.Model Verif.Spec Verif.Lemmas

theorem iterFinish_visited {cfg : IterCfg} {node : DeletionResult} {depth : Nat} {s : IterState} :
    (∀ s', iterFinish cfg node depth s = .again s' → s'.visited = s.visited) ∧
    (∀ i s', iterFinish cfg node depth s = .yield i s' →
      s'.visited = if cfg.unique then i.1.value :: s.visited else s.visited) ∧
    iterFinish cfg node depth s ≠ .done := by
  unfold iterFinish
  split
  · exact ⟨fun s' h => (by cases h; rfl), fun i s' h => (by cases h), fun h => (by cases h)⟩
  · exact ⟨fun s' h => (by cases h), fun i s' h => (by cases h; rfl), fun h => (by cases h)⟩

/-- In a pass, a value becomes visited exactly if it is yielded (and there are to be no duplicates). -/
theorem iterStep_visited {cfg : IterCfg} {s : IterState} :
    (∀ s', iterStep cfg s = .ok (.again s') → s'.visited = s.visited) ∧
    (∀ i s', iterStep cfg s = .ok (.yield i s') →
      s'.visited = if cfg.unique then i.1.value :: s.visited else s.visited) := by
  have fin : ∀ (node : DeletionResult) (depth : Nat) (q : List IterItem),
      (∀ s', (Except.ok (iterFinish cfg node depth { s with queue := q }) : Res IterStep) =
        .ok (.again s') → s'.visited = s.visited) ∧
      (∀ i s', (Except.ok (iterFinish cfg node depth { s with queue := q }) : Res IterStep) =
        .ok (.yield i s') → s'.visited = if cfg.unique then i.1.value :: s.visited else s.visited) :=
    fun node depth q => ⟨fun s' h => (iterFinish_visited (s := { s with queue := q })).1 s' (Except.ok.inj h),
      fun i s' h => (iterFinish_visited (s := { s with queue := q })).2.1 i s' (Except.ok.inj h)⟩
  unfold iterStep
  split
  · unfold iterStepBfs
    split
    · exact ⟨fun s' h => (by cases h), fun i s' h => (by cases h)⟩
    · split
      · exact ⟨fun s' h => (by cases h; rfl), fun i s' h => (by cases h)⟩
      · split
        · split
          · exact ⟨fun s' h => (by cases h), fun i s' h => (by cases h)⟩
          · exact fin _ _ _
        · exact fin _ _ _
  · unfold iterStepDfs
    split
    · exact ⟨fun s' h => (by cases h), fun i s' h => (by cases h)⟩
    · dsimp only
      split
      · split
        · exact ⟨fun s' h => (by cases h; rfl), fun i s' h => (by cases h)⟩
        · split
          · split
            · exact ⟨fun s' h => (by cases h), fun i s' h => (by cases h)⟩
            · exact fin _ _ _
            · exact fin _ _ _
          · split
            · exact ⟨fun s' h => (by cases h), fun i s' h => (by cases h)⟩
            · exact fin _ _ _
      · exact fin _ _ _

/-- **C79**: whatever the mode of an iteration, the cache holds afterwards what it held before and, if there
are to be no duplicates, exactly the values that were yielded. -/
theorem cache_after (cfg : IterCfg) (fuel : Nat) (s : IterState) (items : List IterItem)
    (cache : List Nat) :
    iterCollectCache cfg fuel s = some (.ok (items, cache)) ↔
      iterCollect cfg fuel s = some (.ok items) ∧
        cache = (if cfg.unique then items.reverse.map fun x => x.1.value else []) ++ s.visited := by
  induction fuel generalizing s items cache with
  | zero => simp [iterCollectCache, iterCollect]
  | succ fuel ih =>
    unfold iterCollectCache iterCollect
    obtain ⟨h1, h2⟩ := iterStep_visited (cfg := cfg) (s := s)
    cases hs : iterStep cfg s with
    | error e => simp
    | ok step =>
      cases step with
      | done =>
        simp only [Option.some.injEq, Except.ok.injEq, Prod.mk.injEq]
        constructor
        · rintro ⟨rfl, rfl⟩
          simp
        · rintro ⟨rfl, rfl⟩
          simp
      | again s' =>
        dsimp only
        rw [ih, h1 s' hs]
      | yield i s' =>
        have hv := h2 i s' hs
        dsimp only
        have key : ∀ is c, iterCollectCache cfg fuel s' = some (.ok (is, c)) ↔
            iterCollect cfg fuel s' = some (.ok is) ∧
              c = (if cfg.unique then (i :: is).reverse.map fun x => x.1.value else []) ++ s.visited := by
          intro is c
          rw [ih, hv]
          by_cases hu : cfg.unique = true <;> simp [hu]
        constructor
        · intro h
          cases hc : iterCollectCache cfg fuel s' with
          | none => rw [hc] at h; cases h
          | some r =>
            rw [hc] at h
            cases r with
            | error e => cases h
            | ok r =>
              obtain ⟨is, c⟩ := r
              dsimp only at h
              cases h
              obtain ⟨k1, k2⟩ := (key _ _).mp hc
              rw [k1]
              exact ⟨rfl, k2⟩
        · rintro ⟨h, rfl⟩
          cases hc : iterCollect cfg fuel s' with
          | none => rw [hc] at h; cases h
          | some r =>
            rw [hc] at h
            cases r with
            | error e => cases h
            | ok is =>
              dsimp only at h
              cases h
              rw [(key _ _).mpr ⟨hc, rfl⟩]

/-- One deletion from `[0, 1]` with `[1]` known: only `[0]` is yielded, and it is added to the cache. -/
example : iterCollectCache (recursiveCfg 3 (dfsParams 1)) 100 (iterInitCached (bagValue [0, 1])
      [bagValue [1]]) = some (.ok ([(⟨bagValue [0], 1⟩, 1)], [bagValue [0], bagValue [1]])) :=
  (cache_after _ _ _ _ _).mpr ⟨rfl, rfl⟩

/-- **C79**: depth first and without duplicates, with a cache that holds with every bag also the bags below
it: afterwards the cache holds what it held and every bag within the distances, and a second search of the
same value with the same cache finds nothing. -/
theorem second_search_empty (a : List Nat) (asz : Nat) (p : SearchParams) (cache : List Nat)
    (hasz : asz ≤ 168) (ha : Within asz a) (hp : p.allowDuplicates = false)
    (hdfs : p.breadthfirst = false) (hroot : bagValue a ∉ cache) (hmin : p.minDistance ≠ some 0)
    (hclosed : ∀ b c : List Nat, b.Subperm a → c.Subperm b → bagValue b ∈ cache →
      (p.allowEmptyLeaves = true ∨ c ≠ []) → p.minDistance.getD 1 ≤ a.length - c.length →
      (∀ k, p.maxDistance = some k → a.length - c.length ≤ k) → bagValue c ∈ cache) :
    ∃ (items : List IterItem) (cache' : List Nat),
      (∃ N, ∀ fuel, N ≤ fuel → iterCollectCache (recursiveCfg asz p) fuel
        (iterInitCached (bagValue a) cache) = some (.ok (items, cache'))) ∧
      (∀ v, v ∈ cache' ↔ v ∈ cache ∨
        ∃ b r : List Nat, (b ++ r).Perm a ∧ (p.allowEmptyLeaves = true ∨ b ≠ []) ∧ v = bagValue b ∧
          p.minDistance.getD 1 ≤ r.length ∧ ∀ k, p.maxDistance = some k → r.length ≤ k) ∧
      ∃ N, ∀ fuel, N ≤ fuel → iterCollectCache (recursiveCfg asz p) fuel
        (iterInitCached (bagValue a) cache') = some (.ok ([], cache')) := by
  have hw : Within 168 a := Within.mono ha hasz
  have hu : (recursiveCfg asz p).unique = true := by simp [recursiveCfg, hp]
  obtain ⟨items, ⟨N, hN⟩, hm, -⟩ := iter_external_cache a asz p cache hasz ha hp hdfs hroot hclosed
  set cache' := (items.reverse.map fun x => x.1.value) ++ cache with hc'
  have hmem : ∀ v, v ∈ cache' ↔ v ∈ cache ∨
      ∃ b r : List Nat, (b ++ r).Perm a ∧ (p.allowEmptyLeaves = true ∨ b ≠ []) ∧ v = bagValue b ∧
        p.minDistance.getD 1 ≤ r.length ∧ ∀ k, p.maxDistance = some k → r.length ≤ k := by
    intro v
    have hin : v ∈ cache' ↔ v ∈ cache ∨ ∃ d, ∃ c, ((⟨v, c⟩ : DeletionResult), d) ∈ items := by
      rw [hc', List.mem_append, or_comm, List.mem_map]
      refine or_congr_right ⟨?_, ?_⟩
      · rintro ⟨⟨⟨w, c⟩, d⟩, h, rfl⟩
        exact ⟨d, c, List.mem_reverse.mp h⟩
      · rintro ⟨d, c, h⟩
        exact ⟨_, List.mem_reverse.mpr h, rfl⟩
    rw [hin]
    simp only [hm]
    constructor
    · rintro (h | ⟨d, _, b, r, h1, h2, h3, rfl, h4, h5⟩)
      · exact .inl h
      · exact .inr ⟨b, r, h1, h2, h3, h4, h5⟩
    · rintro (h | ⟨b, r, h1, h2, h3, h4, h5⟩)
      · exact .inl h
      · by_cases hv : v ∈ cache
        · exact .inl hv
        · exact .inr ⟨_, hv, b, r, h1, h2, h3, rfl, h4, h5⟩
  have hroot' : bagValue a ∉ cache' := by
    rw [hmem]
    rintro (h | ⟨b, r, h1, _, h3, h4, _⟩)
    · exact hroot h
    · have hb : b.Subperm a := (List.sublist_append_left b r).subperm.trans h1.subperm
      have e1 := ((bagValue_inj hw (within_of_subperm hb hw)).mp h3).length_eq
      have e2 := h1.length_eq
      rw [List.length_append] at e2
      cases hmn : p.minDistance with
      | none => rw [hmn] at h4; simp only [Option.getD_none] at h4; omega
      | some k =>
        rw [hmn] at h4
        simp only [Option.getD_some] at h4
        exact hmin (by rw [hmn]; congr 1; omega)
  obtain ⟨items', ⟨N', hN'⟩, hm', -⟩ := iter_external_cache a asz p cache' hasz ha hp hdfs hroot' (by
    intro b c hb hcb _ h1 h2 h3
    obtain ⟨r, hr⟩ := subperm_exists_append (hcb.trans hb)
    have hl := hr.length_eq
    rw [List.length_append] at hl
    have hd : a.length - c.length = r.length := by omega
    rw [hd] at h2 h3
    exact (hmem _).mpr (.inr ⟨c, r, hr, h1, rfl, h2, h3⟩))
  have hnil : items' = [] := by
    apply List.eq_nil_iff_forall_not_mem.mpr
    rintro ⟨⟨v, c⟩, d⟩ h
    obtain ⟨hv, b, r, h1, h2, h3, rfl, h4, h5⟩ := (hm' v d).mp ⟨c, h⟩
    exact hv ((hmem v).mpr (.inr ⟨b, r, h1, h2, h3, h4, h5⟩))
  subst hnil
  refine ⟨items, cache', ⟨N, fun fuel hf => (cache_after _ _ _ _ _).mpr ⟨hN fuel hf, ?_⟩⟩, hmem,
    N', fun fuel hf => (cache_after _ _ _ _ _).mpr ⟨hN' fuel hf, ?_⟩⟩
  · rw [hu]; rfl
  · rw [hu]; rfl

example : ∃ (items : List IterItem) (cache' : List Nat),
    (∃ N, ∀ fuel, N ≤ fuel → iterCollectCache (recursiveCfg 3 (dfsParams 2)) fuel
      (iterInitCached (bagValue [0, 1, 2]) []) = some (.ok (items, cache'))) ∧
    bagValue [1, 2] ∈ cache' ∧
    ∃ N, ∀ fuel, N ≤ fuel → iterCollectCache (recursiveCfg 3 (dfsParams 2)) fuel
      (iterInitCached (bagValue [0, 1, 2]) cache') = some (.ok ([], cache')) := by
  obtain ⟨items, cache', h1, h2, h3⟩ := second_search_empty [0, 1, 2] 3 (dfsParams 2) [] (by decide)
    (by decide) rfl rfl (by simp) (by decide) (fun b c _ _ h => absurd h List.not_mem_nil)
  exact ⟨items, cache', h1, (h2 _).mpr (.inr ⟨[1, 2], [0], by decide, .inl rfl, rfl, by decide,
    fun k hk => by cases hk; decide⟩), h3⟩

end Verif.Props
