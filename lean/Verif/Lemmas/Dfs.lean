import Verif.Lemmas.Iter

/-! # The other modes of the deletion iterator -/
namespace Verif.Lemmas

open Verif.Spec Verif.Model

/-- Several passes of `next`, with what they yield. -/
inductive Runs (cfg : IterCfg) : IterState → List IterItem → IterState → Prop
  | refl (s) : Runs cfg s [] s
  | again {s s' out t} : iterStep cfg s = .ok (.again s') → Runs cfg s' out t → Runs cfg s out t
  | yield {s i s' out t} : iterStep cfg s = .ok (.yield i s') → Runs cfg s' out t →
      Runs cfg s (i :: out) t

theorem Runs.trans {cfg : IterCfg} {s t u : IterState} {a b : List IterItem} (h : Runs cfg s a t)
    (h' : Runs cfg t b u) : Runs cfg s (a ++ b) u := by
  induction h with
  | refl => exact h'
  | again h1 _ ih => exact .again h1 (ih h')
  | yield h1 _ ih => exact .yield h1 (ih h')

theorem Runs.collect {cfg : IterCfg} {s t : IterState} {out : List IterItem} (h : Runs cfg s out t)
    (ht : iterStep cfg t = .ok .done) : ∃ N, ∀ fuel, N ≤ fuel →
      iterCollect cfg fuel s = some (.ok out) := by
  induction h with
  | refl =>
    refine ⟨1, fun fuel hf => ?_⟩
    obtain ⟨f, rfl⟩ : ∃ f, fuel = f + 1 := ⟨fuel - 1, by omega⟩
    simp only [iterCollect, ht]
  | again h1 _ ih =>
    obtain ⟨N, hN⟩ := ih ht
    refine ⟨N + 1, fun fuel hf => ?_⟩
    obtain ⟨f, rfl⟩ : ∃ f, fuel = f + 1 := ⟨fuel - 1, by omega⟩
    simp only [iterCollect, h1]
    exact hN f (by omega)
  | yield h1 _ ih =>
    obtain ⟨N, hN⟩ := ih ht
    refine ⟨N + 1, fun fuel hf => ?_⟩
    obtain ⟨f, rfl⟩ : ∃ f, fuel = f + 1 := ⟨fuel - 1, by omega⟩
    simp only [iterCollect, h1, hN f (by omega)]

/-- A bag of `n` symbols reached by `d` deletions is yielded. -/
def Yields (cfg : IterCfg) (n d : Nat) : Prop :=
  cfg.mindepth ≤ d ∧ (cfg.emptyLeaves = true ∨ n ≠ 0) ∧ DepthOk cfg d

/-! ## Depth first, unique -/

/-- The settings: depth first, each value once. -/
structure DfsCfg (cfg : IterCfg) : Prop where
  dfs : cfg.breadthfirst = false
  beam : cfg.singlebeam = false
  size : cfg.alphabetSize ≤ 168

/-- What is visited among the parts of `A` of at most `n` symbols comes with all its sub-bags (`total` is the
number of symbols at depth 0). -/
def ClosedBelow (cfg : IterCfg) (A : List Nat) (total n : Nat) (V : List Nat) : Prop :=
  ∀ P : List Nat, P.Subperm A → P.length ≤ n → bagValue P ∈ V →
    ∀ D : List Nat, D.Subperm P → Yields cfg D.length (total - D.length) → bagValue D ∈ V

structure DfsOut (cfg : IterCfg) (total : Nat) (C V : List Nat) (out : List IterItem) (V' : List Nat) :
    Prop where
  visited : ∀ v, v ∈ V' ↔ v ∈ V ∨ ∃ x ∈ out, x.1.value = v
  nodup : (out.map fun x => x.1.value).Nodup
  fresh : ∀ x ∈ out, x.1.value ∉ V
  sound : ∀ x ∈ out, ∃ D : List Nat, D.Subperm C ∧ D.length + x.2 = total ∧
    x.1.value = bagValue D ∧ Yields cfg D.length x.2
  complete : ∀ D : List Nat, D.Subperm C → Yields cfg D.length (total - D.length) → bagValue D ∈ V'

theorem isEmpty_bag {C : List Nat} (h : Within 168 C) : anaIsEmpty (bagValue C) = true ↔ C = [] := by
  rw [← bagValue_eq_one h]
  have := bagValue_pos h
  simp only [anaIsEmpty, Bool.or_eq_true, decide_eq_true_eq]
  constructor
  · rintro (h | h)
    · exact h
    · omega
  · exact .inl

theorem finish_yields {cfg : IterCfg} {C : List Nat} {c d : Nat} {s : IterState} (hC : Within 168 C)
    (h : Yields cfg C.length d) :
    iterFinish cfg ⟨bagValue C, c⟩ d s = .yield (⟨bagValue C, c⟩, d)
      { s with visited := if cfg.unique then bagValue C :: s.visited else s.visited } := by
  unfold iterFinish
  rw [if_neg]
  simp only [Bool.or_eq_true, decide_eq_true_eq, Bool.and_eq_true, Bool.not_eq_true', isEmpty_bag hC]
  rintro (h1 | ⟨h1, h2⟩)
  · exact absurd h.1 (by omega)
  · rcases h.2.1 with h3 | h3
    · rw [h1] at h3; cases h3
    · rw [h2] at h3; exact h3 rfl

theorem finish_skips {cfg : IterCfg} {C : List Nat} {c d : Nat} {s : IterState} (hC : Within 168 C)
    (hd : DepthOk cfg d) (h : ¬ Yields cfg C.length d) :
    iterFinish cfg ⟨bagValue C, c⟩ d s = .again s := by
  unfold iterFinish
  rw [if_pos]
  simp only [Bool.or_eq_true, decide_eq_true_eq, Bool.and_eq_true, Bool.not_eq_true', isEmpty_bag hC]
  by_contra hcon
  apply h
  refine ⟨?_, ?_, hd⟩
  · by_contra h1; exact hcon (.inl (by omega))
  · by_contra h1
    rw [not_or] at h1
    refine hcon (.inr ⟨by simpa using h1.1, ?_⟩)
    have := h1.2
    simpa using this

/-- The children in the order in which they are handled. -/
def dfsKids (cfg : IterCfg) (C V : List Nat) : List Nat :=
  (descSyms C cfg.alphabetSize).filter fun i =>
    if cfg.unique then !V.contains (bagValue (C.erase i)) else true

/-- The stack entry of the child without `i`. -/
def kid (C : List Nat) (d i : Nat) : IterItem := (⟨bagValue (C.erase i), i⟩, d + 1)

theorem dfs_expand {cfg : IterCfg} (hc : DfsCfg cfg) {C V : List Nat} {c d : Nat}
    {rest : List IterItem} (hC : Within cfg.alphabetSize C) (hb : belowMax cfg d = true)
    (hv : cfg.unique = true → bagValue C ∉ V) :
    iterStep cfg ⟨rest ++ [(⟨bagValue C, c⟩, d)], V⟩ = .ok (iterFinish cfg ⟨bagValue C, c⟩ d
      ⟨rest ++ ((dfsKids cfg C V).reverse.map (kid C d)), V⟩) := by
  have hcont : (cfg.unique && V.contains (bagValue C)) = false := by
    by_cases hu : cfg.unique = true
    · have := hv hu
      simp [hu, this]
    · simp [hu]
  have hdel := delCollect_eq (Within.mono hC hc.size) cfg.alphabetSize hc.size
  simp only [iterStep, hc.dfs, Bool.false_eq_true, if_false, iterStepDfs, List.getLast?_append,
    List.getLast?_singleton, Option.some_or, hb, if_true, hcont, hc.beam, hdel,
    List.dropLast_concat]
  congr 4
  unfold dfsKids
  by_cases hu : cfg.unique = true
  · simp only [hu, if_true, ← List.map_reverse, List.filter_map, List.map_map, List.filter_reverse]
    rfl
  · simp only [hu, Bool.false_eq_true, if_false, ← List.map_reverse, List.map_map, List.filter_true]
    rfl

theorem dfs_leaf {cfg : IterCfg} (hc : DfsCfg cfg) {C V : List Nat} {c d : Nat}
    {rest : List IterItem} (hb : ¬ belowMax cfg d = true) :
    iterStep cfg ⟨rest ++ [(⟨bagValue C, c⟩, d)], V⟩ = .ok (iterFinish cfg ⟨bagValue C, c⟩ d
      ⟨rest, V⟩) := by
  simp only [iterStep, hc.dfs, Bool.false_eq_true, if_false, iterStepDfs, List.getLast?_append,
    List.getLast?_singleton, Option.some_or, hb, List.dropLast_concat]

/-- One pass over the top of the stack, whatever the depth. -/
theorem dfs_pass {cfg : IterCfg} (hc : DfsCfg cfg) {C V : List Nat} {c d : Nat}
    {rest : List IterItem} (hC : Within cfg.alphabetSize C)
    (hv : cfg.unique = true → bagValue C ∉ V) (hd : DepthOk cfg d) :
    ∃ ks : List Nat, ks = (if belowMax cfg d then dfsKids cfg C V else []) ∧
      Runs cfg ⟨rest ++ [(⟨bagValue C, c⟩, d)], V⟩
        (if cfg.mindepth ≤ d ∧ (cfg.emptyLeaves = true ∨ C.length ≠ 0) then [(⟨bagValue C, c⟩, d)] else [])
        ⟨rest ++ ks.reverse.map (kid C d),
          if (cfg.mindepth ≤ d ∧ (cfg.emptyLeaves = true ∨ C.length ≠ 0)) ∧ cfg.unique = true
          then bagValue C :: V else V⟩ := by
  refine ⟨_, rfl, ?_⟩
  have hstep : iterStep cfg ⟨rest ++ [(⟨bagValue C, c⟩, d)], V⟩ =
      .ok (iterFinish cfg ⟨bagValue C, c⟩ d
        ⟨rest ++ ((if belowMax cfg d then dfsKids cfg C V else []).reverse.map (kid C d)), V⟩) := by
    by_cases hb : belowMax cfg d = true
    · rw [if_pos hb]; exact dfs_expand hc hC hb hv
    · rw [if_neg hb, List.reverse_nil, List.map_nil, List.append_nil]; exact dfs_leaf hc hb
  have hC' := Within.mono hC hc.size
  generalize (if belowMax cfg d then dfsKids cfg C V else []) = ks at hstep ⊢
  by_cases hy : cfg.mindepth ≤ d ∧ (cfg.emptyLeaves = true ∨ C.length ≠ 0)
  · rw [finish_yields hC' ⟨hy.1, hy.2, hd⟩] at hstep
    rw [if_pos hy]
    refine .yield hstep ?_
    by_cases hu : cfg.unique = true
    · rw [if_pos (⟨hy, hu⟩ : _ ∧ _), if_pos hu]; exact .refl _
    · rw [if_neg hu, if_neg (fun h : _ ∧ _ => hu h.2)]; exact .refl _
  · rw [finish_skips hC' hd (fun h => hy ⟨h.1, h.2.1⟩)] at hstep
    rw [if_neg hy, if_neg (fun h => hy h.1)]
    exact .again hstep (.refl _)

theorem erase_perm_inj {P : List Nat} {i j : Nat} (hi : i ∈ P) (hj : j ∈ P)
    (h : (P.erase i).Perm (P.erase j)) : i = j := by
  have h1 : (i :: P.erase j).Perm P :=
    ((h.symm.cons i).trans (List.perm_cons_erase hi).symm)
  have h2 : (i :: P.erase j).Perm (j :: P.erase j) := h1.trans (List.perm_cons_erase hj)
  have := h2.count_eq i
  by_contra hne
  rw [List.count_cons_self, List.count_cons_of_ne (Ne.symm hne)] at this
  omega

theorem ClosedBelow.mono {cfg : IterCfg} {A : List Nat} {total n m : Nat} {V : List Nat}
    (h : ClosedBelow cfg A total n V) (hm : m ≤ n) : ClosedBelow cfg A total m V :=
  fun P hP hl => h P hP (by omega)

theorem subperm_erase {D P : List Nat} (h : D.Subperm P) (hl : D.length < P.length) :
    ∃ i ∈ P, D.Subperm (P.erase i) := by
  obtain ⟨c, hc⟩ := subperm_exists_append h
  cases c with
  | nil => have := hc.length_eq; simp at this; omega
  | cons i c =>
    have hp : (i :: (D ++ c)).Perm P := List.perm_middle.symm.trans hc
    have hi : i ∈ P := hp.subset (by simp)
    refine ⟨i, hi, ?_⟩
    have : (D ++ c).Perm (P.erase i) := by
      have := hp.erase i
      simpa using this
    exact (List.sublist_append_left D c).subperm.trans this.subperm

/-- The statement for one stack entry. -/
def DfsNode (cfg : IterCfg) (A : List Nat) (total : Nat) (C : List Nat) : Prop :=
  ∀ (V : List Nat) (c d : Nat) (rest : List IterItem), C.length + d = total → DepthOk cfg d →
    ClosedBelow cfg A total C.length V → bagValue C ∉ V →
    ∃ out V', Runs cfg ⟨rest ++ [(⟨bagValue C, c⟩, d)], V⟩ out ⟨rest, V'⟩ ∧ DfsOut cfg total C V out V'

theorem DfsOut.closed {cfg : IterCfg} (hc : DfsCfg cfg) {total n : Nat} {A C V V' : List Nat}
    {out : List IterItem} (hA : Within cfg.alphabetSize A) (hC : Within cfg.alphabetSize C)
    (h : DfsOut cfg total C V out V') (hV : ClosedBelow cfg A total n V) :
    ClosedBelow cfg A total n V' := by
  intro P hP hl hm D hD hy
  rcases (h.visited _).mp hm with h1 | ⟨x, hx, h1⟩
  · exact (h.visited _).mpr (.inl (hV P hP hl h1 D hD hy))
  · obtain ⟨E, hE, -, hv, -⟩ := h.sound x hx
    have hEP : E.Perm P := (bagValue_inj (within_of_subperm hE (Within.mono hC hc.size))
      (within_of_subperm hP (Within.mono hA hc.size))).mp (by rw [← hv, h1])
    exact h.complete D ((hD.trans hEP.symm.subperm).trans hE) hy

theorem dfs_kids {cfg : IterCfg} (hc : DfsCfg cfg) {total : Nat} {A P : List Nat}
    (hA : Within cfg.alphabetSize A) (hP : Within cfg.alphabetSize P) (d : Nat) (hlen : P.length + d = total)
    (hd : DepthOk cfg (d + 1)) :
    ∀ (ks : List Nat), ks.Nodup → (∀ i ∈ ks, i ∈ P ∧ DfsNode cfg A total (P.erase i)) →
    ∀ (V : List Nat) (rest : List IterItem), ClosedBelow cfg A total (P.length - 1) V →
      (∀ i ∈ ks, bagValue (P.erase i) ∉ V) →
      ∃ out V', Runs cfg ⟨rest ++ ks.reverse.map (kid P d), V⟩ out ⟨rest, V'⟩ ∧
        (∀ v, v ∈ V' ↔ v ∈ V ∨ ∃ x ∈ out, x.1.value = v) ∧
        (out.map fun x => x.1.value).Nodup ∧ (∀ x ∈ out, x.1.value ∉ V) ∧
        (∀ x ∈ out, ∃ D : List Nat, D.Subperm P ∧ D.length < P.length ∧ D.length + x.2 = total ∧
          x.1.value = bagValue D ∧ Yields cfg D.length x.2) ∧
        (∀ i ∈ ks, ∀ D : List Nat, D.Subperm (P.erase i) →
          Yields cfg D.length (total - D.length) → bagValue D ∈ V') := by
  intro ks
  induction ks with
  | nil =>
    intro _ _ V rest _ _
    refine ⟨[], V, ?_, by simp, by simp, by simp, by simp, by simp⟩
    simp only [List.reverse_nil, List.map_nil, List.append_nil]
    exact .refl _
  | cons i ks ih =>
    intro hnd hks V rest hV hfresh
    obtain ⟨hi, hnode⟩ := hks i (by simp)
    have hEl := List.length_erase_of_mem hi
    have hPpos := List.length_pos_of_mem hi
    have hEw : Within cfg.alphabetSize (P.erase i) := fun j hj => hP j (List.mem_of_mem_erase hj)
    obtain ⟨out1, V1, hr1, ho1⟩ := hnode V i (d + 1) (rest ++ ks.reverse.map (kid P d)) (by omega) hd
      (by rw [hEl]; exact hV) (hfresh i (by simp))
    have hV1 := ho1.closed hc hA hEw hV
    have hnd' := List.nodup_cons.mp hnd
    have hfresh1 : ∀ j ∈ ks, bagValue (P.erase j) ∉ V1 := by
      intro j hj hm
      rcases (ho1.visited _).mp hm with h1 | ⟨x, hx, h1⟩
      · exact hfresh j (by simp [hj]) h1
      · obtain ⟨D, hD, -, hv, -⟩ := ho1.sound x hx
        have hjP := (hks j (by simp [hj])).1
        have hjl := List.length_erase_of_mem hjP
        have hjw : Within cfg.alphabetSize (P.erase j) := fun k hk => hP k (List.mem_of_mem_erase hk)
        have hDP : D.Perm (P.erase j) := (bagValue_inj
          (within_of_subperm hD (Within.mono hEw hc.size)) (Within.mono hjw hc.size)).mp
          (by rw [← hv, h1])
        have hDE : D.Perm (P.erase i) := hD.perm_of_length_le (by rw [hDP.length_eq]; omega)
        have := erase_perm_inj hi hjP (hDE.symm.trans hDP)
        subst this
        exact hnd'.1 hj
    obtain ⟨out2, V2, hr2, hv2, hn2, hf2, hs2, hc2⟩ :=
      ih hnd'.2 (fun j hj => hks j (by simp [hj])) V1 rest hV1 hfresh1
    refine ⟨out1 ++ out2, V2, ?_, ?_, ?_, ?_, ?_, ?_⟩
    · have : rest ++ (i :: ks).reverse.map (kid P d) =
          (rest ++ ks.reverse.map (kid P d)) ++ [(⟨bagValue (P.erase i), i⟩, d + 1)] := by
        simp [kid]
      rw [this]
      exact hr1.trans hr2
    · intro v
      rw [hv2, ho1.visited]
      simp only [List.mem_append]
      constructor
      · rintro ((h | ⟨x, hx, h⟩) | ⟨x, hx, h⟩)
        · exact .inl h
        · exact .inr ⟨x, .inl hx, h⟩
        · exact .inr ⟨x, .inr hx, h⟩
      · rintro (h | ⟨x, hx | hx, h⟩)
        · exact .inl (.inl h)
        · exact .inl (.inr ⟨x, hx, h⟩)
        · exact .inr ⟨x, hx, h⟩
    · rw [List.map_append, List.nodup_append]
      refine ⟨ho1.nodup, hn2, ?_⟩
      intro a ha b hb hab
      obtain ⟨x, hx, rfl⟩ := List.mem_map.mp ha
      obtain ⟨y, hy, rfl⟩ := List.mem_map.mp hb
      exact hf2 y hy ((ho1.visited _).mpr (.inr ⟨x, hx, hab⟩))
    · intro x hx
      rcases List.mem_append.mp hx with hx | hx
      · exact ho1.fresh x hx
      · exact fun h => hf2 x hx ((ho1.visited _).mpr (.inl h))
    · intro x hx
      rcases List.mem_append.mp hx with hx | hx
      · obtain ⟨D, hD, h1, h2, h3⟩ := ho1.sound x hx
        have := hD.length_le
        exact ⟨D, hD.trans (List.erase_subperm _ _), by omega, h1, h2, h3⟩
      · exact hs2 x hx
    · intro j hj D hD hy
      rcases List.mem_cons.mp hj with rfl | hj
      · exact (hv2 _).mpr (.inl (ho1.complete D hD hy))
      · exact hc2 j hj D hD hy

theorem dfs_node {cfg : IterCfg} (hc : DfsCfg cfg) (hu : cfg.unique = true) (total : Nat)
    {A : List Nat} (hA : Within cfg.alphabetSize A) :
    ∀ C : List Nat, C.Subperm A → DfsNode cfg A total C := by
  intro C
  induction hn : C.length using Nat.strong_induction_on generalizing C with
  | _ n ih =>
    intro hCA V c d rest hlen hd hV hfresh
    have hC := within_of_subperm hCA hA
    have hCw := Within.mono hC hc.size
    obtain ⟨ks, hks, hrun⟩ := dfs_pass (rest := rest) (c := c) hc hC (fun _ => hfresh) hd
    have hkP : ∀ i ∈ ks, i ∈ C ∧ bagValue (C.erase i) ∉ V ∧ DepthOk cfg (d + 1) := by
      intro i hi
      rw [hks] at hi
      by_cases hb : belowMax cfg d = true
      · rw [if_pos hb] at hi
        simp only [dfsKids, hu, if_true, List.mem_filter, mem_descSyms, Bool.not_eq_true',
          List.contains_eq_mem, decide_eq_false_iff_not] at hi
        exact ⟨hi.1.2, hi.2, belowMax_iff.mp hb⟩
      · rw [if_neg hb] at hi; cases hi
    have hknd : ks.Nodup := by
      rw [hks]
      split
      · exact ((descSyms_sorted C cfg.alphabetSize).imp (fun h => Nat.ne_of_gt h)).filter _
      · exact List.nodup_nil
    obtain ⟨out0, V0, y, hy, hrun, hout, hnd0, hmem0⟩ : ∃ (out0 : List IterItem) (V0 : List Nat) (y : Prop),
        (y ↔ cfg.mindepth ≤ d ∧ (cfg.emptyLeaves = true ∨ C.length ≠ 0)) ∧
        Runs cfg ⟨rest ++ [(⟨bagValue C, c⟩, d)], V⟩ out0 ⟨rest ++ ks.reverse.map (kid C d), V0⟩ ∧
        (∀ x, x ∈ out0 ↔ y ∧ x = (⟨bagValue C, c⟩, d)) ∧ (out0.map fun x => x.1.value).Nodup ∧
        ∀ v, v ∈ V0 ↔ v ∈ V ∨ (y ∧ v = bagValue C) := by
      refine ⟨_, _, _, Iff.rfl, hrun, ?_, ?_, ?_⟩
      · intro x
        by_cases h : cfg.mindepth ≤ d ∧ (cfg.emptyLeaves = true ∨ C.length ≠ 0)
        · rw [if_pos h, List.mem_singleton]; exact ⟨fun e => ⟨h, e⟩, fun e => e.2⟩
        · rw [if_neg h]; exact ⟨fun e => absurd e List.not_mem_nil, fun e => absurd e.1 h⟩
      · split <;> simp
      · intro v
        by_cases h : cfg.mindepth ≤ d ∧ (cfg.emptyLeaves = true ∨ C.length ≠ 0)
        · rw [if_pos (⟨h, hu⟩ : _ ∧ _), List.mem_cons, or_comm]
          exact or_congr_right ⟨fun e => ⟨h, e⟩, fun e => e.2⟩
        · rw [if_neg (fun h' : _ ∧ _ => h h'.1)]
          exact ⟨.inl, fun e => e.elim id (fun e => absurd e.1 h)⟩
    have hcl0 : ClosedBelow cfg A total (C.length - 1) V0 := by
      intro P hP hl hm D hD hyD
      rcases (hmem0 _).mp hm with h | ⟨_, h⟩
      · exact (hmem0 _).mpr (.inl (hV P hP (by omega) h D hD hyD))
      · have hp := (bagValue_inj (within_of_subperm hP (Within.mono hA hc.size)) hCw).mp h
        have h0 : C = [] := by
          apply List.length_eq_zero_iff.mp
          have := hp.length_eq
          omega
        subst h0
        have hP0 : P = [] := List.Perm.eq_nil hp
        subst hP0
        have hD0 : D = [] := List.length_eq_zero_iff.mp (by have := hD.length_le; simpa using this)
        subst hD0
        exact hm
    by_cases hks0 : ks = []
    · -- nothing below
      refine ⟨out0, V0, ?_, ?_⟩
      · rw [hks0] at hrun
        simpa using hrun
      · refine ⟨?_, hnd0, ?_, ?_, ?_⟩
        · intro v
          rw [hmem0]
          simp only [hout]
          constructor
          · rintro (h | ⟨h1, rfl⟩)
            · exact .inl h
            · exact .inr ⟨_, ⟨h1, rfl⟩, rfl⟩
          · rintro (h | ⟨x, ⟨h1, rfl⟩, rfl⟩)
            · exact .inl h
            · exact .inr ⟨h1, rfl⟩
        · intro x hx
          obtain ⟨_, rfl⟩ := (hout x).mp hx
          exact hfresh
        · intro x hx
          obtain ⟨h1, rfl⟩ := (hout x).mp hx
          exact ⟨C, .refl _, hlen, rfl, (hy.mp h1).1, (hy.mp h1).2, hd⟩
        · intro D hD hyD
          by_cases hl : D.length < C.length
          · obtain ⟨i, hi, hDi⟩ := subperm_erase hD hl
            have hb : belowMax cfg d = true := by
              rw [belowMax_iff]; exact hyD.2.2.mono (by omega)
            have hmv : bagValue (C.erase i) ∈ V := by
              by_contra hcon
              have : i ∈ ks := by
                rw [hks, if_pos hb]
                simp only [dfsKids, hu, if_true, List.mem_filter, mem_descSyms, Bool.not_eq_true',
                  List.contains_eq_mem, decide_eq_false_iff_not]
                exact ⟨⟨hC i hi, hi⟩, hcon⟩
              rw [hks0] at this; cases this
            refine (hmem0 _).mpr (.inl (hV (C.erase i) (erase_subperm hCA i)
              (by have := List.length_erase_of_mem hi; omega) hmv D hDi hyD))
          · have hp := hD.perm_of_length_le (by omega)
            refine (hmem0 _).mpr (.inr ⟨?_, bagValue_perm hp⟩)
            have := hp.length_eq
            have h1 : total - D.length = d := by omega
            rw [h1, this] at hyD
            exact hy.mpr ⟨hyD.1, hyD.2.1⟩
    · obtain ⟨k0, hk0⟩ := List.exists_mem_of_ne_nil ks hks0
      have hd1 := (hkP k0 hk0).2.2
      have hb := belowMax_iff.mpr hd1
      obtain ⟨out2, V2, hr2, hv2, hn2, hf2, hs2, hc2⟩ := dfs_kids hc hA hC d hlen hd1 ks hknd
        (fun i hi => ⟨(hkP i hi).1, ih (C.erase i).length (by
          have := List.length_erase_of_mem (hkP i hi).1
          have := List.length_pos_of_mem (hkP i hi).1
          omega) (C.erase i) rfl (erase_subperm hCA i)⟩) V0 rest hcl0
        (by
          intro i hi hm
          rcases (hmem0 _).mp hm with h | ⟨_, h⟩
          · exact (hkP i hi).2.1 h
          · have hp := (bagValue_inj (fun j hj => hCw j (List.mem_of_mem_erase hj)) hCw).mp h
            have := hp.length_eq
            have := List.length_erase_of_mem (hkP i hi).1
            have := List.length_pos_of_mem (hkP i hi).1
            omega)
      refine ⟨_, V2, hrun.trans hr2, ?_⟩
      refine ⟨?_, ?_, ?_, ?_, ?_⟩
      · intro v
        rw [hv2, hmem0]
        simp only [List.mem_append, hout]
        constructor
        · rintro ((h | ⟨h1, rfl⟩) | ⟨x, hx, h⟩)
          · exact .inl h
          · exact .inr ⟨_, .inl ⟨h1, rfl⟩, rfl⟩
          · exact .inr ⟨x, .inr hx, h⟩
        · rintro (h | ⟨x, ⟨h1, rfl⟩ | hx, rfl⟩)
          · exact .inl (.inl h)
          · exact .inl (.inr ⟨h1, rfl⟩)
          · exact .inr ⟨x, hx, rfl⟩
      · rw [List.map_append, List.nodup_append]
        refine ⟨hnd0, hn2, ?_⟩
        intro a ha b hb hab
        obtain ⟨x, hx, rfl⟩ := List.mem_map.mp ha
        obtain ⟨z, hz, rfl⟩ := List.mem_map.mp hb
        obtain ⟨h1, rfl⟩ := (hout x).mp hx
        exact hf2 z hz ((hmem0 _).mpr (.inr ⟨h1, hab.symm⟩))
      · intro x hx
        rcases List.mem_append.mp hx with hx | hx
        · obtain ⟨_, rfl⟩ := (hout x).mp hx
          exact hfresh
        · exact fun h => hf2 x hx ((hmem0 _).mpr (.inl h))
      · intro x hx
        rcases List.mem_append.mp hx with hx | hx
        · obtain ⟨h1, rfl⟩ := (hout x).mp hx
          exact ⟨C, .refl _, hlen, rfl, (hy.mp h1).1, (hy.mp h1).2, hd⟩
        · obtain ⟨D, hD, -, h2, h3, h4⟩ := hs2 x hx
          exact ⟨D, hD, h2, h3, h4⟩
      · intro D hD hyD
        by_cases hl : D.length < C.length
        · obtain ⟨i, hi, hDi⟩ := subperm_erase hD hl
          by_cases hmv : bagValue (C.erase i) ∈ V
          · exact (hv2 _).mpr (.inl ((hmem0 _).mpr (.inl (hV (C.erase i) (erase_subperm hCA i)
              (by have := List.length_erase_of_mem hi; omega) hmv D hDi hyD))))
          · refine hc2 i ?_ D hDi hyD
            rw [hks, if_pos hb]
            simp only [dfsKids, hu, if_true, List.mem_filter, mem_descSyms, Bool.not_eq_true',
              List.contains_eq_mem, decide_eq_false_iff_not]
            exact ⟨⟨hC i hi, hi⟩, hmv⟩
        · have hp := hD.perm_of_length_le (by omega)
          refine (hv2 _).mpr (.inl ((hmem0 _).mpr (.inr ⟨?_, bagValue_perm hp⟩)))
          have := hp.length_eq
          have h1 : total - D.length = d := by omega
          rw [h1, this] at hyD
          exact hy.mpr ⟨hyD.1, hyD.2.1⟩

/-! ## Depth first, duplicates allowed -/

/-- What is yielded for the way `p` of deleting symbols one after another from `C`. -/
def wayItem (C : List Nat) (c d : Nat) (p : List Nat) : IterItem :=
  (⟨bagValue (C.diff p), p.getLast?.getD c⟩, d + p.length)

theorem wayItem_cons (C : List Nat) (c d i : Nat) (p : List Nat) :
    wayItem C c d (i :: p) = wayItem (C.erase i) i (d + 1) p := by
  unfold wayItem
  rw [List.diff_cons, List.getLast?_cons, List.length_cons, Nat.add_assoc, Nat.add_comm 1]
  simp

theorem cons_subperm_iff {i : Nat} {p C : List Nat} :
    (i :: p).Subperm C ↔ i ∈ C ∧ p.Subperm (C.erase i) := by
  constructor
  · intro h
    have hi : i ∈ C := h.subset (by simp)
    refine ⟨hi, ?_⟩
    have := h.trans (List.perm_cons_erase hi).subperm
    exact (List.subperm_cons i).mp this
  · rintro ⟨hi, h⟩
    exact ((List.subperm_cons i).mpr h).trans (List.perm_cons_erase hi).symm.subperm

/-- A way comes before another: larger symbols first, a way before its continuations. -/
abbrev Larger : List Nat → List Nat → Prop := List.Lex (fun a b => a > b)

/-- The statement for one stack entry. -/
def WayNode (cfg : IterCfg) (C : List Nat) : Prop :=
  ∀ (V : List Nat) (c d : Nat) (rest : List IterItem), DepthOk cfg d →
    ∃ ps : List (List Nat), Runs cfg ⟨rest ++ [(⟨bagValue C, c⟩, d)], V⟩ (ps.map (wayItem C c d)) ⟨rest, V⟩ ∧
      ps.Pairwise Larger ∧
      ∀ p, p ∈ ps ↔ p.Subperm C ∧ Yields cfg (C.length - p.length) (d + p.length)

theorem way_kids {cfg : IterCfg} {C : List Nat} (c d : Nat) (hd : DepthOk cfg (d + 1)) (V : List Nat) :
    ∀ (ks : List Nat), ks.Pairwise (· > ·) → (∀ i ∈ ks, i ∈ C ∧ WayNode cfg (C.erase i)) →
    ∀ (rest : List IterItem),
      ∃ ps : List (List Nat), Runs cfg ⟨rest ++ ks.reverse.map (kid C d), V⟩ (ps.map (wayItem C c d)) ⟨rest, V⟩ ∧
        ps.Pairwise Larger ∧
        ∀ p, p ∈ ps ↔ ∃ i ∈ ks, ∃ q, p = i :: q ∧ q.Subperm (C.erase i) ∧
          Yields cfg (C.length - p.length) (d + p.length) := by
  intro ks
  induction ks with
  | nil =>
    intro _ _ rest
    refine ⟨[], ?_, .nil, by simp⟩
    simp only [List.reverse_nil, List.map_nil, List.append_nil]
    exact .refl _
  | cons i ks ih =>
    intro hs hk rest
    have hs' := List.pairwise_cons.mp hs
    obtain ⟨hi, hnode⟩ := hk i (by simp)
    obtain ⟨qs, hr1, ho1, hm1⟩ := hnode V i (d + 1) (rest ++ ks.reverse.map (kid C d)) hd
    obtain ⟨ps, hr2, ho2, hm2⟩ := ih hs'.2 (fun j hj => hk j (by simp [hj])) rest
    have hEl := List.length_erase_of_mem hi
    have hpos := List.length_pos_of_mem hi
    refine ⟨qs.map (i :: ·) ++ ps, ?_, ?_, ?_⟩
    · have : rest ++ (i :: ks).reverse.map (kid C d) =
          (rest ++ ks.reverse.map (kid C d)) ++ [(⟨bagValue (C.erase i), i⟩, d + 1)] := by
        simp [kid]
      rw [this, List.map_append, List.map_map]
      have he : (wayItem C c d ∘ fun x => i :: x) = wayItem (C.erase i) i (d + 1) := by
        funext p; exact wayItem_cons C c d i p
      rw [he]
      exact hr1.trans hr2
    · rw [List.pairwise_append]
      refine ⟨?_, ho2, ?_⟩
      · rw [List.pairwise_map]
        exact ho1.imp (fun h => .cons h)
      · intro a ha b hb
        obtain ⟨q, _, rfl⟩ := List.mem_map.mp ha
        obtain ⟨j, hj, q', rfl, _⟩ := (hm2 b).mp hb
        exact .rel (hs'.1 j hj)
    · intro p
      rw [List.mem_append, List.mem_map, hm2]
      constructor
      · rintro (⟨q, hq, rfl⟩ | ⟨j, hj, h⟩)
        · obtain ⟨h1, h2⟩ := (hm1 q).mp hq
          refine ⟨i, by simp, q, rfl, h1, ?_⟩
          rw [List.length_cons]
          have e1 : C.length - (q.length + 1) = (C.erase i).length - q.length := by omega
          have e2 : d + (q.length + 1) = d + 1 + q.length := by omega
          rw [e1, e2]; exact h2
        · exact ⟨j, by simp [hj], h⟩
      · rintro ⟨j, hj, q, rfl, h1, h2⟩
        rcases List.mem_cons.mp hj with rfl | hj
        · refine .inl ⟨q, (hm1 q).mpr ⟨h1, ?_⟩, rfl⟩
          rw [List.length_cons] at h2
          have e1 : C.length - (q.length + 1) = (C.erase j).length - q.length := by omega
          have e2 : d + (q.length + 1) = d + 1 + q.length := by omega
          rw [e1, e2] at h2; exact h2
        · exact .inr ⟨j, hj, q, rfl, h1, h2⟩

theorem way_node {cfg : IterCfg} (hc : DfsCfg cfg) (hu : cfg.unique = false) :
    ∀ C : List Nat, Within cfg.alphabetSize C → WayNode cfg C := by
  intro C
  induction hn : C.length using Nat.strong_induction_on generalizing C with
  | _ n ih =>
    intro hC V c d rest hd
    obtain ⟨ks, hks, hrun⟩ := dfs_pass (V := V) (rest := rest) (c := c) hc hC
      (fun h => by rw [hu] at h; cases h) hd
    simp only [hu, Bool.false_eq_true, and_false, if_false] at hrun
    have hks' : ks = if belowMax cfg d then descSyms C cfg.alphabetSize else [] := by
      rw [hks]
      simp only [dfsKids, hu, Bool.false_eq_true, if_false, List.filter_true]
    have hkC : ∀ i ∈ ks, i ∈ C ∧ DepthOk cfg (d + 1) := by
      intro i hi
      rw [hks'] at hi
      by_cases hb : belowMax cfg d = true
      · rw [if_pos hb] at hi
        exact ⟨(mem_descSyms.mp hi).2, belowMax_iff.mp hb⟩
      · rw [if_neg hb] at hi; cases hi
    have hsort : ks.Pairwise (· > ·) := by
      rw [hks']; split
      · exact descSyms_sorted _ _
      · exact .nil
    obtain ⟨ps, hr2, ho2, hm2⟩ : ∃ ps : List (List Nat),
        Runs cfg ⟨rest ++ ks.reverse.map (kid C d), V⟩ (ps.map (wayItem C c d)) ⟨rest, V⟩ ∧
        ps.Pairwise Larger ∧
        ∀ p, p ∈ ps ↔ ∃ i ∈ ks, ∃ q, p = i :: q ∧ q.Subperm (C.erase i) ∧
          Yields cfg (C.length - p.length) (d + p.length) := by
      by_cases hd1 : DepthOk cfg (d + 1)
      · refine way_kids c d hd1 V ks hsort (fun i hi => ⟨(hkC i hi).1, ?_⟩) rest
        have := List.length_erase_of_mem (hkC i hi).1
        have := List.length_pos_of_mem (hkC i hi).1
        exact ih (C.erase i).length (by omega) (C.erase i) rfl
          (fun j hj => hC j (List.mem_of_mem_erase hj))
      · have : ks = [] := by
          cases ks with
          | nil => rfl
          | cons i ks => exact absurd (hkC i (by simp)).2 hd1
        subst this
        refine ⟨[], ?_, .nil, by simp⟩
        simp only [List.reverse_nil, List.map_nil, List.append_nil]
        exact .refl _
    have hbelow : ∀ p, p ∈ ps ↔ p ≠ [] ∧ p.Subperm C ∧ Yields cfg (C.length - p.length) (d + p.length) := by
      intro p
      rw [hm2]
      constructor
      · rintro ⟨i, hi, q, rfl, h1, h2⟩
        exact ⟨by simp, cons_subperm_iff.mpr ⟨(hkC i hi).1, h1⟩, h2⟩
      · rintro ⟨h0, h1, h2⟩
        cases p with
        | nil => exact absurd rfl h0
        | cons i q =>
          obtain ⟨hi, hq⟩ := cons_subperm_iff.mp h1
          refine ⟨i, ?_, q, rfl, hq, h2⟩
          rw [hks', if_pos]
          · exact mem_descSyms.mpr ⟨hC i hi, hi⟩
          · rw [belowMax_iff]
            exact h2.2.2.mono (by simp)
    have hroot : wayItem C c d [] = (⟨bagValue C, c⟩, d) := rfl
    by_cases hy : cfg.mindepth ≤ d ∧ (cfg.emptyLeaves = true ∨ C.length ≠ 0)
    · rw [if_pos hy] at hrun
      refine ⟨[] :: ps, hrun.trans hr2, ?_, ?_⟩
      · refine List.pairwise_cons.mpr ⟨?_, ho2⟩
        intro p hp
        cases p with
        | nil => exact absurd rfl ((hbelow []).mp hp).1
        | cons i q => exact .nil
      · intro p
        rw [List.mem_cons, hbelow]
        constructor
        · rintro (rfl | h)
          · exact ⟨List.nil_subperm, hy.1, hy.2, hd⟩
          · exact h.2
        · intro h
          by_cases h0 : p = []
          · exact .inl h0
          · exact .inr ⟨h0, h⟩
    · rw [if_neg hy] at hrun
      refine ⟨ps, hrun.trans hr2, ho2, ?_⟩
      intro p
      rw [hbelow]
      constructor
      · exact fun h => h.2
      · intro h
        refine ⟨?_, h⟩
        rintro rfl
        exact hy ⟨h.2.1, h.2.2.1⟩

/-! ## Breadth first -/

/-- The settings: breadth first. -/
structure WideCfg (cfg : IterCfg) : Prop where
  bfs : cfg.breadthfirst = true
  size : cfg.alphabetSize ≤ 168

theorem bfs_skip {cfg : IterCfg} (hc : WideCfg cfg) (hu : cfg.unique = true) {v c d : Nat}
    {V : List Nat} {rest : List IterItem} (hv : v ∈ V) :
    Runs cfg ⟨(⟨v, c⟩, d) :: rest, V⟩ [] ⟨rest, V⟩ := by
  refine .again ?_ (.refl _)
  have : V.contains v = true := by simpa using hv
  simp only [iterStep, hc.bfs, if_true, iterStepBfs, hu, this, Bool.and_self]

/-- One pass over the front of the queue, whatever the depth. -/
theorem bfs_pass {cfg : IterCfg} (hc : WideCfg cfg) {C V : List Nat} {c d : Nat}
    {rest : List IterItem} (hC : Within cfg.alphabetSize C)
    (hv : cfg.unique = true → bagValue C ∉ V) (hd : DepthOk cfg d) :
    ∃ ks : List Nat, ks = (if belowMax cfg d then dfsKids cfg C V else []) ∧
      Runs cfg ⟨(⟨bagValue C, c⟩, d) :: rest, V⟩
        (if cfg.mindepth ≤ d ∧ (cfg.emptyLeaves = true ∨ C.length ≠ 0) then [(⟨bagValue C, c⟩, d)] else [])
        ⟨rest ++ ks.map (kid C d),
          if (cfg.mindepth ≤ d ∧ (cfg.emptyLeaves = true ∨ C.length ≠ 0)) ∧ cfg.unique = true
          then bagValue C :: V else V⟩ := by
  refine ⟨_, rfl, ?_⟩
  have hC' := Within.mono hC hc.size
  have hcont : (cfg.unique && V.contains (bagValue C)) = false := by
    by_cases hu : cfg.unique = true
    · have := hv hu
      simp [hu, this]
    · simp [hu]
  have hstep : iterStep cfg ⟨(⟨bagValue C, c⟩, d) :: rest, V⟩ =
      .ok (iterFinish cfg ⟨bagValue C, c⟩ d
        ⟨rest ++ ((if belowMax cfg d then dfsKids cfg C V else []).map (kid C d)), V⟩) := by
    by_cases hb : belowMax cfg d = true
    · have hdel := delCollect_eq hC' cfg.alphabetSize hc.size
      rw [if_pos hb]
      simp only [iterStep, hc.bfs, if_true, iterStepBfs, hcont, Bool.false_eq_true, if_false, hb, hdel]
      congr 4
      unfold dfsKids
      by_cases hu : cfg.unique = true
      · simp only [hu, if_true, List.filter_map, List.map_map]
        rfl
      · simp only [hu, Bool.false_eq_true, if_false, List.map_map, List.filter_true]
        rfl
    · rw [if_neg hb, List.map_nil, List.append_nil]
      simp only [iterStep, hc.bfs, if_true, iterStepBfs, hcont, Bool.false_eq_true, if_false, hb]
  generalize (if belowMax cfg d then dfsKids cfg C V else []) = ks at hstep ⊢
  by_cases hy : cfg.mindepth ≤ d ∧ (cfg.emptyLeaves = true ∨ C.length ≠ 0)
  · rw [finish_yields hC' ⟨hy.1, hy.2, hd⟩] at hstep
    rw [if_pos hy]
    refine .yield hstep ?_
    by_cases hu : cfg.unique = true
    · rw [if_pos (⟨hy, hu⟩ : _ ∧ _), if_pos hu]; exact .refl _
    · rw [if_neg hu, if_neg (fun h : _ ∧ _ => hu h.2)]; exact .refl _
  · rw [finish_skips hC' hd (fun h => hy ⟨h.1, h.2.1⟩)] at hstep
    rw [if_neg hy, if_neg (fun h => hy h.1)]
    exact .again hstep (.refl _)

/-! ### Duplicates allowed -/

/-- The ways that continue `p` by one deletion. -/
def wayNext (cfg : IterCfg) (A p : List Nat) : List (List Nat) :=
  if belowMax cfg p.length then (descSyms (A.diff p) cfg.alphabetSize).map (p ++ [·]) else []

theorem diff_append_single (A p : List Nat) (i : Nat) : A.diff (p ++ [i]) = (A.diff p).erase i := by
  rw [List.diff_append, List.diff_cons, List.diff_nil]

theorem wayItem_snoc (A p : List Nat) (c i : Nat) :
    wayItem A c 0 (p ++ [i]) = kid (A.diff p) p.length i := by
  unfold wayItem kid
  rw [diff_append_single]
  simp

theorem subperm_diff {p A : List Nat} (h : p.Subperm A) : (p ++ A.diff p).Perm A :=
  List.subperm_append_diff_self_of_count_le (fun x _ => h.count_le x)

theorem snoc_subperm_iff {i : Nat} {p A : List Nat} (hp : p.Subperm A) :
    (p ++ [i]).Subperm A ↔ i ∈ A.diff p := by
  have h := subperm_diff hp
  constructor
  · intro h1
    have h2 : (p ++ [i]).Subperm (p ++ A.diff p) := h1.trans h.symm.subperm
    rw [List.subperm_append_left] at h2
    exact h2.subset (by simp)
  · intro h1
    refine List.Subperm.trans ?_ h.subperm
    rw [List.subperm_append_left]
    exact List.singleton_subperm_iff.mpr h1

theorem way_level {cfg : IterCfg} (hc : WideCfg cfg) (hu : cfg.unique = false) {A : List Nat}
    (hA : Within cfg.alphabetSize A) (V : List Nat) (c : Nat) :
    ∀ (L Q : List (List Nat)), (∀ p ∈ L, p.Subperm A ∧ DepthOk cfg p.length) →
      ∃ out : List (List Nat),
        Runs cfg ⟨(L ++ Q).map (wayItem A c 0), V⟩ (out.map (wayItem A c 0))
          ⟨(Q ++ L.flatMap (wayNext cfg A)).map (wayItem A c 0), V⟩ ∧
        out.Sublist L ∧ ∀ p ∈ L, p ∈ out ↔ Yields cfg (A.length - p.length) p.length := by
  intro L
  induction L with
  | nil => intro Q _; exact ⟨[], by simpa using .refl _, .slnil, by simp⟩
  | cons p L ih =>
    intro Q hL
    obtain ⟨hp, hdp⟩ := hL p (by simp)
    have hl : (A.diff p).length = A.length - p.length := by
      have := (subperm_diff hp).length_eq
      rw [List.length_append] at this; omega
    have hw : Within cfg.alphabetSize (A.diff p) :=
      within_of_subperm ((List.diff_sublist A p).subperm) hA
    obtain ⟨ks, hks, hrun⟩ := bfs_pass (V := V) (c := p.getLast?.getD c)
      (rest := (L ++ Q).map (wayItem A c 0)) hc hw (fun h => by rw [hu] at h; cases h) hdp
    simp only [hu, Bool.false_eq_true, and_false, if_false] at hrun
    have hnext : ks.map (kid (A.diff p) p.length) = (wayNext cfg A p).map (wayItem A c 0) := by
      rw [hks]
      unfold wayNext
      by_cases hb : belowMax cfg p.length = true
      · rw [if_pos hb, if_pos hb, List.map_map]
        simp only [dfsKids, hu, Bool.false_eq_true, if_false, List.filter_true]
        refine List.map_congr_left (fun i _ => ?_)
        exact (wayItem_snoc A p c i).symm
      · rw [if_neg hb, if_neg hb]; rfl
    obtain ⟨out, hr2, hs2, hm2⟩ := ih (Q ++ wayNext cfg A p) (fun q hq => hL q (by simp [hq]))
    have hst : (L ++ Q).map (wayItem A c 0) ++ ks.map (kid (A.diff p) p.length) =
        (L ++ (Q ++ wayNext cfg A p)).map (wayItem A c 0) := by
      rw [hnext, ← List.map_append, List.append_assoc]
    rw [hst] at hrun
    have hall := hrun.trans hr2
    have hend : Q ++ (p :: L).flatMap (wayNext cfg A) =
        Q ++ wayNext cfg A p ++ L.flatMap (wayNext cfg A) := by
      rw [List.flatMap_cons, List.append_assoc]
    have hfront : ((p :: L) ++ Q).map (wayItem A c 0) =
        ((⟨bagValue (A.diff p), p.getLast?.getD c⟩, p.length) : IterItem) ::
          (L ++ Q).map (wayItem A c 0) := by
      simp [wayItem]
    rw [hend, hfront]
    by_cases hy : cfg.mindepth ≤ p.length ∧ (cfg.emptyLeaves = true ∨ (A.diff p).length ≠ 0)
    · rw [if_pos hy] at hall
      refine ⟨p :: out, ?_, hs2.cons_cons p, ?_⟩
      · have : (p :: out).map (wayItem A c 0) =
            [((⟨bagValue (A.diff p), p.getLast?.getD c⟩, p.length) : IterItem)] ++
              out.map (wayItem A c 0) := by
          simp [wayItem]
        rw [this]; exact hall
      · intro q hq
        rw [List.mem_cons]
        rcases List.mem_cons.mp hq with rfl | hq
        · exact ⟨fun _ => ⟨hy.1, by rw [← hl]; exact hy.2, hdp⟩, fun _ => .inl rfl⟩
        · constructor
          · rintro (rfl | h)
            · exact ⟨hy.1, by rw [← hl]; exact hy.2, hdp⟩
            · exact (hm2 q hq).mp h
          · exact fun h => .inr ((hm2 q hq).mpr h)
    · rw [if_neg hy] at hall
      refine ⟨out, hall, hs2.cons p, ?_⟩
      intro q hq
      rcases List.mem_cons.mp hq with rfl | hq
      · constructor
        · intro h
          exact (hm2 q (hs2.subset h)).mp h
        · rintro ⟨h1, h2, _⟩
          exact absurd ⟨h1, by rw [hl]; exact h2⟩ hy
      · exact hm2 q hq

/-- Shorter ways first, then larger symbols first. -/
def ShortLarger (p q : List Nat) : Prop :=
  p.length < q.length ∨ (p.length = q.length ∧ Larger p q)

theorem larger_append {p q : List Nat} (h : Larger p q) (hl : p.length = q.length) (a b : List Nat) :
    Larger (p ++ a) (q ++ b) := by
  induction h with
  | nil => simp at hl
  | cons _ ih => exact .cons (ih (by simpa using hl))
  | rel h => exact .rel h

theorem larger_snoc (p : List Nat) {i j : Nat} (h : i > j) : Larger (p ++ [i]) (p ++ [j]) := by
  induction p with
  | nil => exact .rel h
  | cons x p ih => exact .cons ih

theorem way_next_sorted {cfg : IterCfg} {A : List Nat} {d : Nat} {L : List (List Nat)}
    (hL : L.Pairwise Larger) (hd : ∀ p ∈ L, p.length = d) :
    (L.flatMap (wayNext cfg A)).Pairwise Larger := by
  rw [List.pairwise_flatMap]
  constructor
  · intro p _
    unfold wayNext
    split
    · rw [List.pairwise_map]
      exact (descSyms_sorted _ _).imp (fun h => larger_snoc p h)
    · exact .nil
  · refine hL.imp_of_mem ?_
    intro p q hp hq h x hx y hy
    unfold wayNext at hx hy
    split at hx
    · split at hy
      · obtain ⟨i, _, rfl⟩ := List.mem_map.mp hx
        obtain ⟨j, _, rfl⟩ := List.mem_map.mp hy
        exact larger_append h (by rw [hd p hp, hd q hq]) _ _
      · cases hy
    · cases hx

theorem way_levels {cfg : IterCfg} (hc : WideCfg cfg) (hu : cfg.unique = false) {A : List Nat}
    (hA : Within cfg.alphabetSize A) (V : List Nat) (c : Nat) :
    ∀ (n d : Nat) (L : List (List Nat)), A.length < d + n → L.Pairwise Larger →
      (∀ p, p ∈ L ↔ p.Subperm A ∧ p.length = d ∧ DepthOk cfg d) →
      ∃ out : List (List Nat),
        Runs cfg ⟨L.map (wayItem A c 0), V⟩ (out.map (wayItem A c 0)) ⟨[], V⟩ ∧
        out.Pairwise ShortLarger ∧
        ∀ p, p ∈ out ↔ p.Subperm A ∧ d ≤ p.length ∧ Yields cfg (A.length - p.length) p.length := by
  intro n
  induction n with
  | zero =>
    intro d L hn _ hm
    have : L = [] := by
      cases L with
      | nil => rfl
      | cons p L =>
        obtain ⟨h1, h2, _⟩ := (hm p).mp (by simp)
        have := h1.length_le; omega
    subst this
    refine ⟨[], .refl _, .nil, ?_⟩
    intro p
    constructor
    · intro h; cases h
    · rintro ⟨h1, h2, _⟩
      have := h1.length_le; omega
  | succ n ih =>
    intro d L hn hs hm
    obtain ⟨out1, hr1, hsub, hm1⟩ := way_level hc hu hA V c L [] (fun p hp => by
      obtain ⟨h1, h2, h3⟩ := (hm p).mp hp
      exact ⟨h1, h2 ▸ h3⟩)
    rw [List.append_nil, List.nil_append] at hr1
    obtain ⟨out2, hr2, hs2, hm2⟩ := ih (d + 1) (L.flatMap (wayNext cfg A)) (by omega)
      (way_next_sorted hs (fun p hp => ((hm p).mp hp).2.1)) (by
        intro p
        rw [List.mem_flatMap]
        constructor
        · rintro ⟨q, hq, hp⟩
          obtain ⟨h1, h2, h3⟩ := (hm q).mp hq
          unfold wayNext at hp
          split at hp
          · next hb =>
            obtain ⟨i, hi, rfl⟩ := List.mem_map.mp hp
            refine ⟨(snoc_subperm_iff h1).mpr (mem_descSyms.mp hi).2, by simp [h2], ?_⟩
            rw [← h2]; exact belowMax_iff.mp hb
          · cases hp
        · rintro ⟨h1, h2, h3⟩
          rcases List.eq_nil_or_concat p with rfl | ⟨q, i, rfl⟩
          · simp at h2
          · rw [List.concat_eq_append] at h1 h2 ⊢
            have hq : q.Subperm A := (List.sublist_append_left q [i]).subperm.trans h1
            have hql : q.length = d := by simpa using h2
            refine ⟨q, (hm q).mpr ⟨hq, hql, h3.mono (by omega)⟩, ?_⟩
            unfold wayNext
            rw [if_pos (by rw [belowMax_iff, hql]; exact h3)]
            have hi := (snoc_subperm_iff hq).mp h1
            exact List.mem_map.mpr ⟨i, mem_descSyms.mpr
              ⟨hA i ((List.diff_sublist A q).subset hi), hi⟩, rfl⟩)
    refine ⟨out1 ++ out2, ?_, ?_, ?_⟩
    · rw [List.map_append]; exact hr1.trans hr2
    · rw [List.pairwise_append]
      refine ⟨?_, hs2, ?_⟩
      · refine (hs.sublist hsub).imp_of_mem ?_
        intro p q hp hq h
        exact .inr ⟨by rw [((hm p).mp (hsub.subset hp)).2.1, ((hm q).mp (hsub.subset hq)).2.1], h⟩
      · intro p hp q hq
        have h1 := ((hm p).mp (hsub.subset hp)).2.1
        have h2 := ((hm2 q).mp hq).2.1
        exact .inl (by omega)
    · intro p
      rw [List.mem_append, hm2]
      constructor
      · rintro (h | ⟨h1, h2, h3⟩)
        · have hpL := hsub.subset h
          obtain ⟨h1, h2, h3⟩ := (hm p).mp hpL
          exact ⟨h1, by omega, (hm1 p hpL).mp h⟩
        · exact ⟨h1, by omega, h3⟩
      · rintro ⟨h1, h2, h3⟩
        by_cases hp : p.length = d
        · have hpL := (hm p).mpr ⟨h1, hp, hp ▸ h3.2.2⟩
          exact .inl ((hm1 p hpL).mpr h3)
        · exact .inr ⟨h1, by omega, h3⟩

/-! ### Unique -/

/-- The values in a queue. -/
def Queued (Q : List IterItem) (v : Nat) : Prop := ∃ x ∈ Q, x.1.value = v

theorem wide_level {cfg : IterCfg} (hc : WideCfg cfg) (hu : cfg.unique = true) {A : List Nat}
    (hA : Within cfg.alphabetSize A) (d : Nat) (hd : DepthOk cfg d) :
    ∀ (L Q : List IterItem) (V : List Nat),
      (∀ x ∈ L, x.2 = d ∧ ∃ C : List Nat, C.Subperm A ∧ C.length + d = A.length ∧ x.1.value = bagValue C) →
      (∀ x ∈ Q, x.2 = d + 1 ∧ DepthOk cfg (d + 1) ∧ ∃ C : List Nat, C.Subperm A ∧
        C.length + (d + 1) = A.length ∧ x.1.value = bagValue C) →
      (∀ C : List Nat, C.Subperm A → bagValue C ∈ V → A.length ≤ C.length + d) →
      (∀ C : List Nat, C.Subperm A → C.length + d = A.length → bagValue C ∈ V → DepthOk cfg (d + 1) →
        ∀ i ∈ C, Queued Q (bagValue (C.erase i))) →
      ∃ out Q' V', Runs cfg ⟨L ++ Q, V⟩ out ⟨Q', V'⟩ ∧
        (∀ x ∈ out, x ∈ L ∧ ∃ C : List Nat, C.Subperm A ∧ C.length + d = A.length ∧
          x.1.value = bagValue C ∧ Yields cfg C.length d) ∧
        (out.map fun x => x.1.value).Nodup ∧ (∀ x ∈ out, x.1.value ∉ V) ∧
        (∀ v, v ∈ V' ↔ v ∈ V ∨ ∃ x ∈ out, x.1.value = v) ∧
        (∀ x ∈ L, ∀ C : List Nat, C.Subperm A → x.1.value = bagValue C → Yields cfg C.length d →
          bagValue C ∈ V') ∧
        (∀ x ∈ Q', x.2 = d + 1 ∧ DepthOk cfg (d + 1) ∧ ∃ C : List Nat, C.Subperm A ∧
          C.length + (d + 1) = A.length ∧ x.1.value = bagValue C) ∧
        (∀ v, Queued Q v → Queued Q' v) ∧
        (∀ x ∈ L, ∀ C : List Nat, C.Subperm A → x.1.value = bagValue C → DepthOk cfg (d + 1) →
          ∀ i ∈ C, Queued Q' (bagValue (C.erase i))) := by
  have hA' := Within.mono hA hc.size
  intro L
  induction L with
  | nil =>
    intro Q V _ hQ _ _
    exact ⟨[], Q, V, .refl _, by simp, by simp, by simp, by simp, by simp, hQ, fun _ h => h, by simp⟩
  | cons x L ih =>
    intro Q V hL hQ hV hVk
    obtain ⟨hxd, C, hCA, hCl, hCv⟩ := hL x (by simp)
    obtain ⟨⟨v, c⟩, dx⟩ := x
    simp only at hxd hCv
    subst hxd hCv
    have hCw := within_of_subperm hCA hA'
    have same : ∀ {D : List Nat}, D.Subperm A → bagValue C = bagValue D → C.Perm D :=
      fun hD h => (bagValue_inj hCw (within_of_subperm hD hA')).mp h
    by_cases hv : bagValue C ∈ V
    · obtain ⟨out, Q', V', hr, h1, h2, h3, h4, h5, h6, h7, h8⟩ :=
        ih Q V (fun y hy => hL y (by simp [hy])) hQ hV hVk
      refine ⟨out, Q', V', ?_, ?_, h2, h3, h4, ?_, h6, h7, ?_⟩
      · exact (bfs_skip hc hu hv).trans hr
      · intro y hy
        obtain ⟨ha, hb⟩ := h1 y hy
        exact ⟨by simp [ha], hb⟩
      · intro y hy D hD hDv hyD
        rcases List.mem_cons.mp hy with rfl | hy
        · simp only at hDv
          rw [← hDv]; exact (h4 _).mpr (.inl hv)
        · exact h5 y hy D hD hDv hyD
      · intro y hy D hD hDv hd1 i hi
        rcases List.mem_cons.mp hy with rfl | hy
        · have hp := same hD hDv
          have := h7 _ (hVk C hCA hCl hv hd1 i (hp.symm.subset hi))
          rwa [bagValue_perm (hp.erase i)] at this
        · exact h8 y hy D hD hDv hd1 i hi
    · obtain ⟨ks, hks, hrun⟩ := bfs_pass (V := V) (c := c) (rest := L ++ Q) hc
        (within_of_subperm hCA hA) (fun _ => hv) hd
      have hkC : ∀ i, i ∈ ks ↔ i ∈ C ∧ DepthOk cfg (dx + 1) := by
        intro i
        rw [hks]
        by_cases hb : belowMax cfg dx = true
        · rw [if_pos hb]
          simp only [dfsKids, hu, if_true, List.mem_filter, mem_descSyms, Bool.not_eq_true',
            List.contains_eq_mem, decide_eq_false_iff_not]
          constructor
          · exact fun h => ⟨h.1.2, belowMax_iff.mp hb⟩
          · rintro ⟨h, _⟩
            refine ⟨⟨hA i (hCA.subset h), h⟩, ?_⟩
            intro hm
            have h1 := hV (C.erase i) (erase_subperm hCA i) hm
            have := List.length_erase_of_mem h
            have := List.length_pos_of_mem h
            omega
        · rw [if_neg hb]
          constructor
          · intro h; cases h
          · exact fun h => absurd (belowMax_iff.mpr h.2) hb
      obtain ⟨out0, V0, y, hy, hrun, hout, hnd0, hmem0⟩ : ∃ (out0 : List IterItem) (V0 : List Nat) (y : Prop),
          (y ↔ Yields cfg C.length dx) ∧
          Runs cfg ⟨(⟨bagValue C, c⟩, dx) :: (L ++ Q), V⟩ out0 ⟨L ++ Q ++ ks.map (kid C dx), V0⟩ ∧
          (∀ x, x ∈ out0 ↔ y ∧ x = (⟨bagValue C, c⟩, dx)) ∧ (out0.map fun x => x.1.value).Nodup ∧
          ∀ v, v ∈ V0 ↔ v ∈ V ∨ (y ∧ v = bagValue C) := by
        refine ⟨_, _, cfg.mindepth ≤ dx ∧ (cfg.emptyLeaves = true ∨ C.length ≠ 0),
          ⟨fun h => ⟨h.1, h.2, hd⟩, fun h => ⟨h.1, h.2.1⟩⟩, hrun, ?_, ?_, ?_⟩
        · intro x
          by_cases h : cfg.mindepth ≤ dx ∧ (cfg.emptyLeaves = true ∨ C.length ≠ 0)
          · rw [if_pos h, List.mem_singleton]; exact ⟨fun e => ⟨h, e⟩, fun e => e.2⟩
          · rw [if_neg h]; exact ⟨fun e => absurd e List.not_mem_nil, fun e => absurd e.1 h⟩
        · split <;> simp
        · intro v
          by_cases h : cfg.mindepth ≤ dx ∧ (cfg.emptyLeaves = true ∨ C.length ≠ 0)
          · rw [if_pos (⟨h, hu⟩ : _ ∧ _), List.mem_cons, or_comm]
            exact or_congr_right ⟨fun e => ⟨h, e⟩, fun e => e.2⟩
          · rw [if_neg (fun h' : _ ∧ _ => h h'.1)]
            exact ⟨.inl, fun e => e.elim id (fun e => absurd e.1 h)⟩
      rw [List.append_assoc] at hrun
      have hkq : ∀ {D : List Nat}, C.Perm D → DepthOk cfg (dx + 1) → ∀ i ∈ D,
          Queued (Q ++ ks.map (kid C dx)) (bagValue (D.erase i)) := by
        intro D hp hd1 i hi
        refine ⟨kid C dx i, ?_, bagValue_perm (hp.erase i)⟩
        exact List.mem_append_right _ (List.mem_map_of_mem ((hkC i).mpr ⟨hp.symm.subset hi, hd1⟩))
      obtain ⟨out, Q', V', hr, h1, h2, h3, h4, h5, h6, h7, h8⟩ :=
        ih (Q ++ ks.map (kid C dx)) V0 (fun y hy => hL y (by simp [hy])) (by
          intro z hz
          rcases List.mem_append.mp hz with hz | hz
          · exact hQ z hz
          · obtain ⟨i, hi, rfl⟩ := List.mem_map.mp hz
            obtain ⟨hiC, hd1⟩ := (hkC i).mp hi
            refine ⟨rfl, hd1, C.erase i, erase_subperm hCA i, ?_, rfl⟩
            have := List.length_erase_of_mem hiC
            have := List.length_pos_of_mem hiC
            omega) (by
          intro D hD hm
          rcases (hmem0 _).mp hm with h | ⟨_, h⟩
          · exact hV D hD h
          · have := (same hD h.symm).length_eq; omega) (by
          intro D hD hDl hm hd1 i hi
          rcases (hmem0 _).mp hm with h | ⟨_, h⟩
          · obtain ⟨z, hz, hzv⟩ := hVk D hD hDl h hd1 i hi
            exact ⟨z, List.mem_append_left _ hz, hzv⟩
          · exact hkq (same hD h.symm) hd1 i hi)
      refine ⟨out0 ++ out, Q', V', hrun.trans hr, ?_, ?_, ?_, ?_, ?_, h6, ?_, ?_⟩
      · intro z hz
        rcases List.mem_append.mp hz with hz | hz
        · obtain ⟨hyy, rfl⟩ := (hout z).mp hz
          exact ⟨by simp, C, hCA, hCl, rfl, hy.mp hyy⟩
        · obtain ⟨ha, hb⟩ := h1 z hz
          exact ⟨by simp [ha], hb⟩
      · rw [List.map_append, List.nodup_append]
        refine ⟨hnd0, h2, ?_⟩
        intro a ha b hb hab
        obtain ⟨z, hz, rfl⟩ := List.mem_map.mp ha
        obtain ⟨w, hw, rfl⟩ := List.mem_map.mp hb
        obtain ⟨hyy, rfl⟩ := (hout z).mp hz
        exact h3 w hw ((hmem0 _).mpr (.inr ⟨hyy, hab.symm⟩))
      · intro z hz
        rcases List.mem_append.mp hz with hz | hz
        · obtain ⟨_, rfl⟩ := (hout z).mp hz
          exact hv
        · exact fun h => h3 z hz ((hmem0 _).mpr (.inl h))
      · intro w
        rw [h4, hmem0]
        simp only [List.mem_append, hout]
        constructor
        · rintro ((h | ⟨h1, rfl⟩) | ⟨z, hz, h⟩)
          · exact .inl h
          · exact .inr ⟨_, .inl ⟨h1, rfl⟩, rfl⟩
          · exact .inr ⟨z, .inr hz, h⟩
        · rintro (h | ⟨z, ⟨h1, rfl⟩ | hz, rfl⟩)
          · exact .inl (.inl h)
          · exact .inl (.inr ⟨h1, rfl⟩)
          · exact .inr ⟨z, hz, rfl⟩
      · intro z hz D hD hDv hyD
        rcases List.mem_cons.mp hz with rfl | hz
        · simp only at hDv
          have hp := same hD hDv
          rw [← hDv]
          refine (h4 _).mpr (.inl ((hmem0 _).mpr (.inr ⟨hy.mpr ?_, rfl⟩)))
          rw [hp.length_eq]; exact hyD
        · exact h5 z hz D hD hDv hyD
      · rintro w ⟨z, hz, hzw⟩
        exact h7 w ⟨z, List.mem_append_left _ hz, hzw⟩
      · intro z hz D hD hDv hd1 i hi
        rcases List.mem_cons.mp hz with rfl | hz
        · exact h7 _ (hkq (same hD hDv) hd1 i hi)
        · exact h8 z hz D hD hDv hd1 i hi

theorem wide_levels {cfg : IterCfg} (hc : WideCfg cfg) (hu : cfg.unique = true) {A : List Nat}
    (hA : Within cfg.alphabetSize A) :
    ∀ (n d : Nat) (L : List IterItem) (V : List Nat), A.length < d + n →
      (∀ x ∈ L, x.2 = d ∧ DepthOk cfg d ∧ ∃ C : List Nat, C.Subperm A ∧ C.length + d = A.length ∧
        x.1.value = bagValue C) →
      (∀ C : List Nat, C.Subperm A → C.length + d = A.length → DepthOk cfg d → Queued L (bagValue C)) →
      (∀ C : List Nat, C.Subperm A → bagValue C ∈ V → A.length < C.length + d) →
      ∃ out V', Runs cfg ⟨L, V⟩ out ⟨[], V'⟩ ∧
        (out.map fun x => x.1.value).Nodup ∧
        (∀ x ∈ out, d ≤ x.2 ∧ x.1.value ∉ V ∧ ∃ C : List Nat, C.Subperm A ∧ C.length + x.2 = A.length ∧
          x.1.value = bagValue C ∧ Yields cfg C.length x.2) ∧
        (∀ C : List Nat, C.Subperm A → C.length + d ≤ A.length → Yields cfg C.length (A.length - C.length) →
          ∃ x ∈ out, x.1.value = bagValue C) ∧
        out.Pairwise (fun x y => x.2 ≤ y.2) := by
  have hA' := Within.mono hA hc.size
  intro n
  induction n with
  | zero =>
    intro d L V hn hL _ _
    have : L = [] := by
      cases L with
      | nil => rfl
      | cons x L =>
        obtain ⟨_, _, C, _, h, _⟩ := hL x (by simp)
        omega
    subst this
    exact ⟨[], V, .refl _, by simp, by simp, fun C _ h => by omega, .nil⟩
  | succ n ih =>
    intro d L V hn hL hcov hV
    by_cases hd : DepthOk cfg d
    · obtain ⟨out1, Q1, V1, hr1, h1, h2, h3, h4, h5, h6, -, h8⟩ :=
        wide_level hc hu hA d hd L [] V (fun x hx => ⟨(hL x hx).1, (hL x hx).2.2⟩) (by simp)
          (fun C hC h => (hV C hC h).le) (by
            intro C hC hCl h
            have := hV C hC h
            omega)
      rw [List.append_nil] at hr1
      have hcov1 : ∀ C : List Nat, C.Subperm A → C.length + (d + 1) = A.length →
          DepthOk cfg (d + 1) → Queued Q1 (bagValue C) := by
        intro C hC hCl hd1
        obtain ⟨P, i, hP, hi, rfl, hPl⟩ := exists_parent hC (by omega)
        obtain ⟨x, hx, hxv⟩ := hcov P hP (by omega) hd
        exact h8 x hx P hP hxv hd1 i hi
      have hV1 : ∀ C : List Nat, C.Subperm A → bagValue C ∈ V1 → A.length < C.length + (d + 1) := by
        intro C hC hm
        rcases (h4 _).mp hm with h | ⟨x, hx, h⟩
        · have := hV C hC h; omega
        · obtain ⟨_, D, hD, hDl, hDv, _⟩ := h1 x hx
          have hp := (bagValue_inj (within_of_subperm hD hA') (within_of_subperm hC hA')).mp
            (by rw [← hDv, h])
          have := hp.length_eq
          omega
      obtain ⟨out2, V2, hr2, g1, g2, g3, g4⟩ := ih (d + 1) Q1 V1 (by omega) h6 hcov1 hV1
      refine ⟨out1 ++ out2, V2, hr1.trans hr2, ?_, ?_, ?_, ?_⟩
      · rw [List.map_append, List.nodup_append]
        refine ⟨h2, g1, ?_⟩
        intro a ha b hb hab
        obtain ⟨z, hz, rfl⟩ := List.mem_map.mp ha
        obtain ⟨w, hw, rfl⟩ := List.mem_map.mp hb
        exact (g2 w hw).2.1 ((h4 _).mpr (.inr ⟨z, hz, hab⟩))
      · intro x hx
        rcases List.mem_append.mp hx with hx | hx
        · obtain ⟨hxL, C, hC⟩ := h1 x hx
          have hxd := (hL x hxL).1
          rw [hxd]
          exact ⟨le_rfl, h3 x hx, C, hC⟩
        · obtain ⟨ha, hb, hc'⟩ := g2 x hx
          exact ⟨by omega, fun h => hb ((h4 _).mpr (.inl h)), hc'⟩
      · intro C hC hCl hy
        by_cases hl : C.length + d = A.length
        · obtain ⟨x, hx, hxv⟩ := hcov C hC hl hd
          have hd' : A.length - C.length = d := by omega
          rw [hd'] at hy
          have hm := h5 x hx C hC hxv hy
          rcases (h4 _).mp hm with h | ⟨z, hz, h⟩
          · have := hV C hC h; omega
          · exact ⟨z, by simp [hz], h⟩
        · obtain ⟨z, hz, h⟩ := g3 C hC (by omega) hy
          exact ⟨z, by simp [hz], h⟩
      · rw [List.pairwise_append]
        refine ⟨?_, g4, ?_⟩
        · refine List.Pairwise.imp_of_mem ?_ (List.pairwise_of_forall (fun _ _ => trivial))
          intro a b ha hb _
          rw [(hL a (h1 a ha).1).1, (hL b (h1 b hb).1).1]
        · intro a ha b hb
          rw [(hL a (h1 a ha).1).1]
          have := (g2 b hb).1
          omega
    · have : L = [] := by
        cases L with
        | nil => rfl
        | cons x L => exact absurd (hL x (by simp)).2.1 hd
      subst this
      refine ⟨[], V, .refl _, by simp, by simp, ?_, .nil⟩
      intro C hC hCl hy
      exact absurd (hy.2.2.mono (by omega)) hd

end Verif.Lemmas
