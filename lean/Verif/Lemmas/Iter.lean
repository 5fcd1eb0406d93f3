import Verif.Lemmas.Bag
import Mathlib.Data.List.Sort
import Mathlib.Data.List.Range
import Mathlib.Tactic.Ring

/-! # The deletion iterators -/
namespace Verif.Lemmas

open Verif.Spec Verif.Model

/-- Symbols of the bag below `k`, descending, without repetition. -/
def descSyms (l : List Nat) : Nat → List Nat
  | 0 => []
  | k + 1 => if k ∈ l then k :: descSyms l k else descSyms l k

theorem mem_descSyms {l : List Nat} {k i : Nat} : i ∈ descSyms l k ↔ i < k ∧ i ∈ l := by
  induction k with
  | zero => simp [descSyms]
  | succ k ih =>
    simp only [descSyms]
    split
    · next h =>
      rw [List.mem_cons, ih]
      constructor
      · rintro (rfl | ⟨h1, h2⟩)
        · exact ⟨by omega, h⟩
        · exact ⟨by omega, h2⟩
      · rintro ⟨h1, h2⟩
        by_cases hik : i = k
        · exact .inl hik
        · exact .inr ⟨by omega, h2⟩
    · next h =>
      rw [ih]
      constructor
      · rintro ⟨h1, h2⟩; exact ⟨by omega, h2⟩
      · rintro ⟨h1, h2⟩
        refine ⟨?_, h2⟩
        have : i ≠ k := by rintro rfl; exact h h2
        omega

theorem descSyms_sorted (l : List Nat) (k : Nat) : (descSyms l k).Pairwise (· > ·) := by
  induction k with
  | zero => simp [descSyms]
  | succ k ih =>
    simp only [descSyms]
    split
    · refine List.pairwise_cons.mpr ⟨?_, ih⟩
      intro i hi; exact (mem_descSyms.mp hi).1
    · exact ih

theorem descSyms_length (l : List Nat) (k : Nat) : (descSyms l k).length ≤ k := by
  induction k with
  | zero => simp [descSyms]
  | succ k ih => simp only [descSyms]; split <;> (try simp only [List.length_cons]) <;> omega

theorem descSyms_nil (k : Nat) : descSyms [] k = [] := by
  induction k with
  | zero => rfl
  | succ k ih => simp [descSyms, ih]

theorem delCollect_eq {l : List Nat} (hl : Within 168 l) :
    ∀ k, k ≤ 168 → delCollect (bagValue l) k =
      .ok ((descSyms l k).map fun i => ⟨bagValue (l.erase i), i⟩) := by
  intro k
  induction k with
  | zero => intro _; rfl
  | succ k ih =>
    intro hk
    simp only [delCollect]
    split
    · next h =>
      rw [bagValue_eq_one hl] at h
      subst h
      rw [descSyms_nil]; rfl
    · rw [character_eq (by omega)]
      simp only []
      by_cases hm : k ∈ l
      · rw [anaDelete_mem hm hl]
        simp only []
        rw [ih (by omega)]
        simp [descSyms, hm]
      · rw [anaDelete_not_mem (by omega) hm hl]
        simp only []
        rw [ih (by omega)]
        simp [descSyms, hm]

theorem delNext_eq {l : List Nat} (hl : Within 168 l) :
    ∀ k, k ≤ 168 → delNext (bagValue l) k =
      .ok ((descSyms l k).head?.map fun i => (⟨bagValue (l.erase i), i⟩, i)) := by
  intro k
  induction k with
  | zero => intro _; rfl
  | succ k ih =>
    intro hk
    simp only [delNext]
    split
    · next h =>
      rw [bagValue_eq_one hl] at h
      subst h
      rw [descSyms_nil]; rfl
    · rw [character_eq (by omega)]
      simp only []
      by_cases hm : k ∈ l
      · rw [anaDelete_mem hm hl]
        simp [descSyms, hm]
      · rw [anaDelete_not_mem (by omega) hm hl]
        simp only []
        rw [ih (by omega)]
        simp [descSyms, hm]

theorem descSyms_head_sorted {x : Nat} {l : List Nat} {k : Nat} (hs : (x :: l).Pairwise (· ≥ ·))
    (hk : Within k (x :: l)) : (descSyms (x :: l) k).head? = some x := by
  have hx : x ∈ descSyms (x :: l) k := mem_descSyms.mpr ⟨hk x (by simp), by simp⟩
  rcases hd : descSyms (x :: l) k with _ | ⟨y, ys⟩
  · rw [hd] at hx; cases hx
  · rw [hd] at hx
    simp only [List.head?_cons, Option.some.injEq]
    have hy : y ∈ descSyms (x :: l) k := by rw [hd]; simp
    have hyl := (mem_descSyms.mp hy).2
    have hyx : y ≤ x := by
      rcases List.mem_cons.mp hyl with rfl | h
      · exact le_rfl
      · exact (List.pairwise_cons.mp hs).1 y h
    rcases List.mem_cons.mp hx with h | h
    · exact h.symm
    · have hp := descSyms_sorted (x :: l) k
      rw [hd] at hp
      have := (List.pairwise_cons.mp hp).1 x h
      omega

/-- What `iter` yields for a descending list of symbols, starting at depth `d`. -/
def iterChain : List Nat → Nat → List IterItem
  | [], _ => []
  | x :: l, d => (⟨bagValue l, x⟩, d + 1) :: iterChain l (d + 1)

theorem iterCollect_chain {asz : Nat} (hasz : asz ≤ 168) :
    ∀ (l : List Nat), l.Pairwise (· ≥ ·) → Within asz l → ∀ (ci d fuel : Nat) (vis : List Nat),
      l.length + 2 ≤ fuel →
      iterCollect (iterCfg asz) fuel ⟨[(⟨bagValue l, ci⟩, d)], vis⟩ =
        some (.ok ((if 1 ≤ d then [(⟨bagValue l, ci⟩, d)] else []) ++ iterChain l d)) := by
  intro l
  induction l with
  | nil =>
    intro _ _ ci d fuel vis hf
    obtain ⟨fuel, rfl⟩ : ∃ f, fuel = f + 2 := ⟨fuel - 2, by simp at hf; omega⟩
    have hn := delNext_eq (l := []) (by intro i hi; cases hi) asz hasz
    rw [descSyms_nil] at hn
    simp only [iterCollect, iterStep, iterCfg, Bool.false_eq_true, if_false, iterStepDfs,
      List.getLast?_singleton, belowMax, if_true, Bool.false_and, hn, List.head?_nil,
      Option.map_none, iterFinish, Bool.not_true]
    by_cases hd : d < 1
    · simp [hd, iterChain, show ¬ 1 ≤ d by omega]
    · simp [hd, iterChain, show 1 ≤ d by omega]
  | cons x l ih =>
    intro hs hw ci d fuel vis hf
    obtain ⟨fuel, rfl⟩ : ∃ f, fuel = f + 1 := ⟨fuel - 1, by simp at hf; omega⟩
    have hn := delNext_eq (l := x :: l) (Within.mono hw hasz) asz hasz
    rw [descSyms_head_sorted hs hw] at hn
    simp only [Option.map_some, List.erase_cons_head] at hn
    have hrec := ih (List.pairwise_cons.mp hs).2 (fun i hi => hw i (by simp [hi])) x (d + 1) fuel
      vis (by simp at hf; omega)
    rw [if_pos (by omega)] at hrec
    simp only [iterCfg] at hrec
    simp only [iterCollect, iterStep, iterCfg, Bool.false_eq_true, if_false, iterStepDfs,
      List.getLast?_singleton, belowMax, if_true, Bool.false_and, hn, iterFinish, Bool.not_true]
    by_cases hd : d < 1
    · simp [hd, iterChain, show ¬ 1 ≤ d by omega, hrec]
    · simp [hd, iterChain, show 1 ≤ d by omega, hrec]

theorem iterAll_eq {asz : Nat} (hasz : asz ≤ 168) {l : List Nat} (hs : l.Pairwise (· ≥ ·))
    (hw : Within asz l) : iterAll (bagValue l) asz = .ok (iterChain l 0) := by
  have := iterCollect_chain hasz l hs hw 0 0 (Nat.log2 (bagValue l) + 2) []
    (by have := length_le_log2 (Within.mono hw hasz); omega)
  simp only [iterAll, iterInit, this]
  simp

theorem iterChain_length (l : List Nat) (d : Nat) : (iterChain l d).length = l.length := by
  induction l generalizing d with
  | nil => rfl
  | cons x l ih => simp [iterChain, ih]

/-- descending rearrangement -/
def sortDesc (l : List Nat) : List Nat := l.insertionSort (· ≥ ·)

theorem sortDesc_perm (l : List Nat) : (sortDesc l).Perm l := List.perm_insertionSort _ _
theorem sortDesc_sorted (l : List Nat) : (sortDesc l).Pairwise (· ≥ ·) :=
  List.pairwise_insertionSort _ _

theorem iterAll_bag {asz : Nat} (hasz : asz ≤ 168) {l : List Nat} (hw : Within asz l) :
    iterAll (bagValue l) asz = .ok (iterChain (sortDesc l) 0) := by
  rw [← bagValue_perm (sortDesc_perm l)]
  exact iterAll_eq hasz (sortDesc_sorted l) (within_perm (sortDesc_perm l) hw)

theorem charCount_bag {asz : Nat} (hasz : asz ≤ 168) {l : List Nat} (hw : Within asz l) :
    charCount (bagValue l) asz = .ok (l.length % 65536) := by
  rw [charCount, iterAll_bag hasz hw]
  simp only [iterChain_length, (sortDesc_perm l).length_eq]

theorem upperBoundLoop_chain (l : List Nat) (d m c : Nat) (hc : c + l.length < 65536) :
    upperBoundLoop (iterChain l d) m c = .ok (l.foldl max m, c + l.length) := by
  induction l generalizing d m c with
  | nil => rfl
  | cons x l ih =>
    simp only [List.length_cons] at hc
    simp only [iterChain, upperBoundLoop]
    rw [if_neg (by omega), ih _ _ _ (by omega)]
    have : (if x > m then x else m) = max m x := by split <;> omega
    simp only [this, List.foldl_cons, List.length_cons]
    congr 2; omega

theorem foldl_max_perm {k l : List Nat} (h : k.Perm l) (m : Nat) :
    k.foldl max m = l.foldl max m :=
  h.foldl_eq' (fun x _ y _ z => by omega) m

theorem alphabetUpperBound_bag {asz : Nat} (hasz : asz ≤ 168) {l : List Nat} (hw : Within asz l)
    (hlen : l.length < 65536) :
    alphabetUpperBound (bagValue l) asz = .ok (l.foldl max 0, l.length) := by
  have hp := sortDesc_perm l
  rw [alphabetUpperBound, iterAll_bag hasz hw]
  simp only []
  rw [upperBoundLoop_chain _ _ _ _ (by rw [hp.length_eq]; omega), foldl_max_perm hp, hp.length_eq]
  simp

/-! ## Breadth-first search -/

/-- depth limit of a configuration -/
def DepthOk (cfg : IterCfg) (d : Nat) : Prop := ∀ m, cfg.maxdepth = some m → d ≤ m

theorem belowMax_iff {cfg : IterCfg} {d : Nat} : belowMax cfg d = true ↔ DepthOk cfg (d + 1) := by
  unfold belowMax DepthOk
  cases h : cfg.maxdepth with
  | none => simp
  | some m => simp; omega

theorem DepthOk.mono {cfg : IterCfg} {d d' : Nat} (h : DepthOk cfg d) (hd : d' ≤ d) :
    DepthOk cfg d' := fun m hm => le_trans hd (h m hm)

/-- configuration: breadth first, unique, no empty leaves, root not yielded -/
structure BfsCfg (cfg : IterCfg) : Prop where
  bfs : cfg.breadthfirst = true
  uniq : cfg.unique = true
  noEmpty : cfg.emptyLeaves = false
  minOne : cfg.mindepth = 1
  size : cfg.alphabetSize ≤ 168

/-- a queue item stands for a sub-bag of `A` with `depth` symbols removed -/
def NodeOk (cfg : IterCfg) (A : List Nat) (x : IterItem) : Prop :=
  ∃ C : List Nat, C.Subperm A ∧ C.length + x.2 = A.length ∧ x.1.value = bagValue C ∧
    DepthOk cfg x.2

/-- weight of a value in the termination measure -/
def wt (cfg : IterCfg) (v : Nat) : Nat := (cfg.alphabetSize + 1) ^ Nat.log2 v

def qwt (cfg : IterCfg) (q : List IterItem) : Nat := (q.map fun x => wt cfg x.1.value).sum

/-- covered: visited or waiting -/
def Covered (q : List IterItem) (vis : List Nat) (v : Nat) : Prop :=
  v ∈ vis ∨ ∃ x ∈ q, x.1.value = v

structure BfsInv (cfg : IterCfg) (A : List Nat) (q : List IterItem) (vis : List Nat) (d0 : Nat) :
    Prop where
  node : ∀ x ∈ q, NodeOk cfg A x
  visOk : ∀ v ∈ vis, ∃ C : List Nat, C.Subperm A ∧ C.length < A.length ∧ v = bagValue C
  closed : ∀ P : List Nat, P.Subperm A → bagValue P ∈ vis → DepthOk cfg (A.length - P.length + 1) →
    ∀ i ∈ P, P.erase i ≠ [] → Covered q vis (bagValue (P.erase i))
  root : (∃ x ∈ q, x.1.value = bagValue A) ∨
    (DepthOk cfg 1 → ∀ i ∈ A, A.erase i ≠ [] → Covered q vis (bagValue (A.erase i)))
  sorted : q.Pairwise (fun x y => x.2 ≤ y.2)
  range : ∀ x ∈ q, d0 ≤ x.2 ∧ x.2 ≤ d0 + 1

/-- what remains to be yielded -/
structure BfsOut (cfg : IterCfg) (A : List Nat) (vis : List Nat) (d0 : Nat)
    (out : List IterItem) : Prop where
  sound : ∀ x ∈ out, ∃ C : List Nat, C.Subperm A ∧ C.length + x.2 = A.length ∧
    x.1.value = bagValue C ∧ DepthOk cfg x.2 ∧ 1 ≤ x.2 ∧ C ≠ []
  fresh : ∀ x ∈ out, x.1.value ∉ vis
  nodup : (out.map fun x => x.1.value).Nodup
  complete : ∀ C : List Nat, C.Subperm A → C ≠ [] → C.length < A.length →
    DepthOk cfg (A.length - C.length) → bagValue C ∈ vis ∨ ∃ x ∈ out, x.1.value = bagValue C
  sorted : out.Pairwise (fun x y => x.2 ≤ y.2)
  lower : ∀ x ∈ out, d0 ≤ x.2

theorem erase_subperm {P A : List Nat} (h : P.Subperm A) (i : Nat) : (P.erase i).Subperm A :=
  List.Subperm.trans (List.erase_subperm _ _) h

/-- every proper sub-bag is a child of a larger sub-bag -/
theorem exists_parent {C A : List Nat} (h : C.Subperm A) (hl : C.length < A.length) :
    ∃ (P : List Nat) (i : Nat), P.Subperm A ∧ i ∈ P ∧ (P.erase i) = C ∧ P.length = C.length + 1 := by
  obtain ⟨c, hc⟩ := subperm_exists_append h
  cases c with
  | nil => have := hc.length_eq; simp at this; omega
  | cons i c =>
    refine ⟨i :: C, i, ?_, by simp, by simp, by simp⟩
    have : (i :: C ++ c).Perm A := List.Perm.trans List.perm_middle.symm hc
    exact List.Subperm.trans (List.sublist_append_left (i :: C) c).subperm this.subperm

theorem bfs_final {cfg : IterCfg} {A vis : List Nat} {d0 : Nat} (_hA : Within 168 A)
    (h : BfsInv cfg A [] vis d0) : BfsOut cfg A vis d0 [] := by
  refine ⟨by simp, by simp, by simp, ?_, by simp, by simp⟩
  intro C
  induction hn : A.length - C.length using Nat.strong_induction_on generalizing C with
  | _ n ih =>
    intro hC hne hlt hdep
    left
    obtain ⟨P, i, hP, hi, rfl, hlen⟩ := exists_parent hC hlt
    have key : Covered [] vis (bagValue (P.erase i)) := by
      by_cases hPA : P.length < A.length
      · have hPne : P ≠ [] := by rintro rfl; cases hi
        have hv : bagValue P ∈ vis := by
          have := ih (A.length - P.length) (by omega) P rfl hP hPne hPA (hdep.mono (by omega))
          simpa using this
        exact h.closed P hP hv (hdep.mono (by omega)) i hi hne
      · have hPA' : P.Perm A := hP.perm_of_length_le (by omega)
        have hiA : i ∈ A := hPA'.subset hi
        have he : (A.erase i).Perm (P.erase i) := (hPA'.erase i).symm
        rcases h.root with ⟨x, hx, _⟩ | hr
        · cases hx
        · have := hr (hdep.mono (by omega)) i hiA (by
            intro h0; rw [h0] at he; exact hne (List.nil_perm.mp he))
          rwa [bagValue_perm he] at this
    rcases key with h | ⟨x, hx, _⟩
    · exact h
    · cases hx

theorem log2_child {l : List Nat} {i : Nat} (hl : Within 168 l) (hi : i ∈ l) :
    Nat.log2 (bagValue (l.erase i)) + 1 ≤ Nat.log2 (bagValue l) := by
  have hw : Within 168 (l.erase i) := fun j hj => hl j (List.mem_of_mem_erase hj)
  have hpos := bagValue_pos hw
  have hp := (symPrime_prime (hl i hi)).two_le
  rw [bagValue_perm (List.perm_cons_erase hi), bagValue_cons,
    Nat.le_log2 (by have := Nat.mul_pos (show 0 < symPrime i by omega) hpos; omega)]
  have h1 := Nat.log2_self_le (n := bagValue (l.erase i)) (by omega)
  rw [Nat.pow_succ, Nat.mul_comm]
  exact Nat.mul_le_mul hp h1

theorem sum_map_le_const {α : Type} (l : List α) (f : α → Nat) (b n : Nat) (hl : l.length ≤ n)
    (h : ∀ x ∈ l, f x ≤ b) : (l.map f).sum ≤ n * b := by
  induction l generalizing n with
  | nil => simp
  | cons x l ih =>
    obtain ⟨n, rfl⟩ : ∃ m, n = m + 1 := ⟨n - 1, by simp at hl; omega⟩
    simp only [List.map_cons, List.sum_cons]
    have h1 := h x (by simp)
    have h2 := ih n (by simpa using hl) (fun y hy => h y (by simp [hy]))
    rw [Nat.succ_mul]; omega

theorem wt_children {cfg : IterCfg} {l : List Nat} (hl : Within 168 l)
    (items : List IterItem) (hlen : items.length ≤ cfg.alphabetSize)
    (h : ∀ x ∈ items, ∃ i ∈ l, x.1.value = bagValue (l.erase i)) :
    qwt cfg items + 1 ≤ wt cfg (bagValue l) := by
  unfold qwt wt
  rcases items with _ | ⟨x, items⟩
  · simp only [List.map_nil, List.sum_nil, Nat.zero_add]
    exact Nat.one_le_pow _ _ (by omega)
  · obtain ⟨i, hi, _⟩ := h x (by simp)
    have hm := log2_child hl hi
    obtain ⟨m, hm'⟩ : ∃ m, Nat.log2 (bagValue l) = m + 1 := ⟨Nat.log2 (bagValue l) - 1, by omega⟩
    rw [hm']
    have := sum_map_le_const (x :: items) (fun x => (cfg.alphabetSize + 1) ^ Nat.log2 x.1.value)
      ((cfg.alphabetSize + 1) ^ m) cfg.alphabetSize hlen (by
        intro y hy
        obtain ⟨j, hj, e⟩ := h y hy
        have := log2_child hl hj
        rw [e]
        exact Nat.pow_le_pow_right (by omega) (by omega))
    have hpos : 1 ≤ (cfg.alphabetSize + 1) ^ m := Nat.one_le_pow _ _ (by omega)
    calc _ ≤ cfg.alphabetSize * (cfg.alphabetSize + 1) ^ m + (cfg.alphabetSize + 1) ^ m := by omega
      _ = (cfg.alphabetSize + 1) ^ (m + 1) := by ring

theorem qwt_append (cfg : IterCfg) (a b : List IterItem) :
    qwt cfg (a ++ b) = qwt cfg a + qwt cfg b := by simp [qwt]

theorem qwt_cons (cfg : IterCfg) (x : IterItem) (b : List IterItem) :
    qwt cfg (x :: b) = wt cfg x.1.value + qwt cfg b := by simp [qwt]

/-- the children pushed for a node -/
def bfsChildren (cfg : IterCfg) (C : List Nat) (vis : List Nat) (depth : Nat) : List IterItem :=
  (((descSyms C cfg.alphabetSize).map fun i => (⟨bagValue (C.erase i), i⟩ : DeletionResult)).filter
    (fun child => !vis.contains child.value)).map (fun child => (child, depth + 1))

theorem mem_bfsChildren {cfg : IterCfg} {C vis : List Nat} {depth : Nat} {x : IterItem} :
    x ∈ bfsChildren cfg C vis depth ↔
      ∃ i, i < cfg.alphabetSize ∧ i ∈ C ∧ x = (⟨bagValue (C.erase i), i⟩, depth + 1) ∧
        bagValue (C.erase i) ∉ vis := by
  simp only [bfsChildren, List.mem_map, List.mem_filter, mem_descSyms]
  constructor
  · rintro ⟨c, ⟨⟨i, ⟨h1, h2⟩, rfl⟩, h3⟩, rfl⟩
    exact ⟨i, h1, h2, rfl, by simpa using h3⟩
  · rintro ⟨i, h1, h2, rfl, h3⟩
    exact ⟨_, ⟨⟨i, ⟨h1, h2⟩, rfl⟩, by simpa using h3⟩, rfl⟩

theorem bfsChildren_length {cfg : IterCfg} {C vis : List Nat} {depth : Nat} :
    (bfsChildren cfg C vis depth).length ≤ cfg.alphabetSize := by
  simp only [bfsChildren, List.length_map]
  refine (List.length_filter_le _ _).trans ?_
  rw [List.length_map]; exact descSyms_length _ _

theorem bfs_collect {cfg : IterCfg} (hc : BfsCfg cfg) {A : List Nat}
    (hA : Within cfg.alphabetSize A) :
    ∀ (fuel : Nat) (q : List IterItem) (vis : List Nat) (d0 : Nat),
      BfsInv cfg A q vis d0 → qwt cfg q + 1 ≤ fuel →
      ∃ out, iterCollect cfg fuel ⟨q, vis⟩ = some (.ok out) ∧ BfsOut cfg A vis d0 out := by
  have hA' : Within 168 A := Within.mono hA hc.size
  intro fuel
  induction fuel with
  | zero => intro q vis d0 _ h; omega
  | succ fuel ih =>
    intro q vis d0 hinv hfuel
    cases q with
    | nil =>
      refine ⟨[], ?_, bfs_final hA' hinv⟩
      simp [iterCollect, iterStep, hc.bfs, iterStepBfs]
    | cons x q =>
      obtain ⟨node, depth⟩ := x
      obtain ⟨C, hCA, hlen, hval, hdep⟩ := hinv.node _ (List.mem_cons_self ..)
      simp only at hlen hval hdep
      have hCw : Within 168 C := within_of_subperm hCA hA'
      rw [qwt_cons] at hfuel
      simp only at hfuel
      have hwpos : 1 ≤ wt cfg node.value := Nat.one_le_pow _ _ (by omega)
      have hrange := hinv.range
      have hqs := List.pairwise_cons.mp hinv.sorted
      have hd := hrange _ (List.mem_cons_self ..)
      simp only at hd
      by_cases hvis : node.value ∈ vis
      · -- already visited: skip
        have hinv' : BfsInv cfg A q vis d0 := by
          have hcov : ∀ v, Covered ((node, depth) :: q) vis v → Covered q vis v := by
            rintro v (h | ⟨y, hy, rfl⟩)
            · exact .inl h
            · rcases List.mem_cons.mp hy with rfl | hy
              · exact .inl hvis
              · exact .inr ⟨y, hy, rfl⟩
          refine ⟨fun y hy => hinv.node y (by simp [hy]), hinv.visOk, ?_, ?_, hqs.2,
            fun y hy => hrange y (by simp [hy])⟩
          · intro P h1 h2 h3 i hi hne
            exact hcov _ (hinv.closed P h1 h2 h3 i hi hne)
          · rcases hinv.root with ⟨y, hy, he⟩ | hr
            · rcases List.mem_cons.mp hy with rfl | hy
              · exfalso
                obtain ⟨D, hD, hDl, hDe⟩ := hinv.visOk _ hvis
                simp only at he
                rw [he] at hDe
                have := (bagValue_inj hA' (within_of_subperm hD hA')).mp hDe
                have := this.length_eq; omega
              · exact .inl ⟨y, hy, he⟩
            · exact .inr fun h i hi hne => hcov _ (hr h i hi hne)
        obtain ⟨out, h1, h2⟩ := ih q vis d0 hinv' (by omega)
        refine ⟨out, ?_, h2⟩
        have hcont : vis.contains node.value = true := by simpa using hvis
        simp only [iterCollect, iterStep, hc.bfs, if_true, iterStepBfs, hc.uniq, Bool.true_and,
          hcont]
        exact h1
      · have hcont : vis.contains node.value = false := by simpa using hvis
        -- the queue after expansion
        obtain ⟨q', hstep, hq', hcover, hwt⟩ : ∃ q', iterStep cfg ⟨(node, depth) :: q, vis⟩ =
            .ok (iterFinish cfg node depth ⟨q', vis⟩) ∧
            (∃ ch : List IterItem, q' = q ++ ch ∧ (∀ y ∈ ch, y.2 = depth + 1 ∧ NodeOk cfg A y)) ∧
            (DepthOk cfg (depth + 1) → ∀ i ∈ C, Covered q' vis (bagValue (C.erase i))) ∧
            qwt cfg q' + 1 ≤ wt cfg node.value + qwt cfg q := by
          by_cases hb : belowMax cfg depth = true
          · refine ⟨q ++ bfsChildren cfg C vis depth, ?_, ⟨_, rfl, ?_⟩, ?_, ?_⟩
            · have hdc := delCollect_eq hCw _ hc.size
              rw [← hval] at hdc
              simp only [iterStep, hc.bfs, if_true, iterStepBfs, hc.uniq, Bool.true_and, hcont,
                Bool.false_eq_true, if_false, hb, hdc]
              rfl
            · intro y hy
              obtain ⟨i, hi, hiC, rfl, _⟩ := mem_bfsChildren.mp hy
              refine ⟨rfl, C.erase i, erase_subperm hCA i, ?_, rfl, belowMax_iff.mp hb⟩
              have := List.length_erase_of_mem hiC
              have := List.length_pos_of_mem hiC
              simp only; omega
            · intro _ i hi
              by_cases hv : bagValue (C.erase i) ∈ vis
              · exact .inl hv
              · refine .inr ⟨(⟨bagValue (C.erase i), i⟩, depth + 1), ?_, rfl⟩
                refine List.mem_append_right _ (mem_bfsChildren.mpr ⟨i, ?_, hi, rfl, hv⟩)
                exact (within_of_subperm hCA hA) i hi
            · have := wt_children (cfg := cfg) hCw (bfsChildren cfg C vis depth)
                bfsChildren_length (by
                  intro y hy
                  obtain ⟨i, _, hiC, rfl, _⟩ := mem_bfsChildren.mp hy
                  exact ⟨i, hiC, rfl⟩)
              rw [qwt_append, hval]; omega
          · refine ⟨q, ?_, ⟨[], by simp, by simp⟩, ?_, by omega⟩
            · simp only [Bool.not_eq_true] at hb
              simp only [iterStep, hc.bfs, if_true, iterStepBfs, hc.uniq, Bool.true_and, hcont,
                Bool.false_eq_true, if_false, hb]
            · intro h; exact absurd (belowMax_iff.mpr h) hb
        obtain ⟨ch, hq'eq, hch⟩ := hq'
        -- invariant after expansion, for visited set vis' ⊇ vis
        have hsort' : q'.Pairwise (fun x y => x.2 ≤ y.2) := by
          rw [hq'eq]
          refine List.pairwise_append.mpr ⟨hqs.2, ?_, ?_⟩
          · refine List.pairwise_iff_forall_sublist.mpr ?_
            intro a b hab
            have ha : a ∈ ch := hab.subset (by simp)
            have hb : b ∈ ch := hab.subset (by simp)
            rw [(hch a ha).1, (hch b hb).1]
          · intro a ha b hb
            rw [(hch b hb).1]
            have := (hrange a (by simp [ha])).2
            omega
        have hrange' : ∀ y ∈ q', depth ≤ y.2 ∧ y.2 ≤ depth + 1 := by
          intro y hy
          rw [hq'eq] at hy
          rcases List.mem_append.mp hy with hy | hy
          · have h1 := hqs.1 y hy
            have h2 := (hrange y (by simp [hy])).2
            simp only at h1
            omega
          · rw [(hch y hy).1]; omega
        have hnode' : ∀ y ∈ q', NodeOk cfg A y := by
          intro y hy
          rw [hq'eq] at hy
          rcases List.mem_append.mp hy with hy | hy
          · exact hinv.node y (by simp [hy])
          · exact (hch y hy).2
        have hinv' : ∀ vis' : List Nat, (∀ v ∈ vis, v ∈ vis') →
            (vis' = node.value :: vis ∨ (vis' = vis ∧ (C.length = A.length ∨ C = []))) →
            (∀ v ∈ vis', ∃ C : List Nat, C.Subperm A ∧ C.length < A.length ∧ v = bagValue C) →
            BfsInv cfg A q' vis' depth := by
          intro vis' hsub hcase hvo
          have hcov : ∀ v, Covered ((node, depth) :: q) vis v → v ≠ node.value → Covered q' vis' v := by
            rintro v (h | ⟨y, hy, rfl⟩) hne
            · exact .inl (hsub v h)
            · rcases List.mem_cons.mp hy with rfl | hy
              · exact absurd rfl hne
              · exact .inr ⟨y, by rw [hq'eq]; exact List.mem_append_left _ hy, rfl⟩
          have hcov2 : ∀ v, Covered q' vis v → Covered q' vis' v := by
            rintro v (h | h)
            · exact .inl (hsub v h)
            · exact .inr h
          have hcovc : ∀ (P : List Nat) (i : Nat), P.Subperm A → i ∈ P → P.erase i ≠ [] →
              Covered ((node, depth) :: q) vis (bagValue (P.erase i)) →
              Covered q' vis' (bagValue (P.erase i)) := by
            intro P i hP hi hne hcv
            by_cases he : bagValue (P.erase i) = node.value
            · rcases hcase with rfl | ⟨rfl, hC | hC⟩
              · exact .inl (by rw [he]; exact List.mem_cons_self ..)
              · exfalso
                rw [hval] at he
                have hp := (bagValue_inj (within_of_subperm (erase_subperm hP i) hA') hCw).mp he
                have h1 := hp.length_eq
                have h2 := List.length_erase_of_mem hi
                have h3 := hP.length_le
                have h4 := List.length_pos_of_mem hi
                omega
              · exfalso
                rw [hval] at he
                have hp := (bagValue_inj (within_of_subperm (erase_subperm hP i) hA') hCw).mp he
                rw [hC] at hp
                exact hne (List.perm_nil.mp hp)
            · exact hcov _ hcv he
          refine ⟨hnode', hvo, ?_, ?_, hsort', hrange'⟩
          · intro P hP hPv hPd i hi hne
            have hPv' : bagValue P ∈ vis ∨ bagValue P = node.value := by
              rcases hcase with rfl | ⟨rfl, _⟩
              · rcases List.mem_cons.mp hPv with h | h
                · exact .inr h
                · exact .inl h
              · exact .inl hPv
            rcases hPv' with h | h
            · exact hcovc P i hP hi hne (hinv.closed P hP h hPd i hi hne)
            · rw [hval] at h
              have hp := (bagValue_inj (within_of_subperm hP hA') hCw).mp h
              have hl := hp.length_eq
              have := hcover (hPd.mono (by omega)) i (hp.subset hi)
              rw [bagValue_perm (hp.erase i)]
              exact hcov2 _ this
          · rcases hinv.root with ⟨y, hy, he⟩ | hr
            · rcases List.mem_cons.mp hy with rfl | hy
              · simp only at he
                rw [hval] at he
                have hp := (bagValue_inj hCw hA').mp he
                have hl := hp.length_eq
                right
                intro hd1 i hi _
                have := hcover (hd1.mono (by omega)) i (hp.symm.subset hi)
                rw [bagValue_perm (hp.symm.erase i)]
                exact hcov2 _ this
              · exact .inl ⟨y, by rw [hq'eq]; exact List.mem_append_left _ hy, he⟩
            · right
              intro hd1 i hi hne
              exact hcovc A i (List.Subperm.refl A) hi hne (hr hd1 i hi hne)
        -- yield or not
        by_cases hskip : depth < 1 ∨ C = []
        · have hfin : iterFinish cfg node depth ⟨q', vis⟩ = .again ⟨q', vis⟩ := by
            unfold iterFinish
            rw [if_pos]
            simp only [hc.minOne, hc.noEmpty, Bool.not_false, Bool.true_and, Bool.or_eq_true,
              decide_eq_true_eq]
            rcases hskip with h | h
            · exact .inl h
            · right; rw [hval, h]; rfl
          obtain ⟨out, h1, h2⟩ := ih q' vis depth (hinv' vis (fun v hv => hv)
            (.inr ⟨rfl, by
              rcases hskip with h | h
              · left; omega
              · right; exact h⟩) hinv.visOk) (by omega)
          refine ⟨out, ?_, ⟨h2.sound, h2.fresh, h2.nodup, h2.complete, h2.sorted, ?_⟩⟩
          · simp only [iterCollect, hstep, hfin]; exact h1
          · intro y hy; have := h2.lower y hy; omega
        · push Not at hskip
          have hne1 : node.value ≠ 1 := by
            rw [hval]; exact fun h => hskip.2 ((bagValue_eq_one hCw).mp h)
          have hne0 : node.value ≠ 0 := by rw [hval]; have := bagValue_pos hCw; omega
          have hfin : iterFinish cfg node depth ⟨q', vis⟩ =
              .yield (node, depth) ⟨q', node.value :: vis⟩ := by
            unfold iterFinish
            rw [if_neg]
            · simp [hc.uniq]
            · simp only [hc.minOne, hc.noEmpty, Bool.not_false, Bool.true_and, Bool.or_eq_true,
                decide_eq_true_eq, anaIsEmpty]
              push Not
              exact ⟨by omega, hne1, hne0⟩
          obtain ⟨out, h1, h2⟩ := ih q' (node.value :: vis) depth
            (hinv' _ (fun v hv => by simp [hv]) (.inl rfl) (by
              intro v hv
              rcases List.mem_cons.mp hv with rfl | hv
              · exact ⟨C, hCA, by omega, hval⟩
              · exact hinv.visOk v hv)) (by omega)
          refine ⟨(node, depth) :: out, ?_, ⟨?_, ?_, ?_, ?_, ?_, ?_⟩⟩
          · simp only [iterCollect, hstep, hfin, h1]
          · intro y hy
            rcases List.mem_cons.mp hy with rfl | hy
            · exact ⟨C, hCA, hlen, hval, hdep, hskip.1, hskip.2⟩
            · exact h2.sound y hy
          · intro y hy
            rcases List.mem_cons.mp hy with rfl | hy
            · exact hvis
            · intro h; exact h2.fresh y hy (by simp [h])
          · rw [List.map_cons, List.nodup_cons]
            refine ⟨?_, h2.nodup⟩
            intro h
            obtain ⟨y, hy, he⟩ := List.mem_map.mp h
            exact h2.fresh y hy (by rw [he]; simp)
          · intro D hD hDne hDl hDd
            rcases h2.complete D hD hDne hDl hDd with h | ⟨y, hy, he⟩
            · rcases List.mem_cons.mp h with h | h
              · exact .inr ⟨(node, depth), by simp, h.symm⟩
              · exact .inl h
            · exact .inr ⟨y, by simp [hy], he⟩
          · exact List.pairwise_cons.mpr ⟨fun y hy => h2.lower y hy, h2.sorted⟩
          · intro y hy
            rcases List.mem_cons.mp hy with rfl | hy
            · exact hd.1
            · have := h2.lower y hy; omega

theorem iterCollect_mono {cfg : IterCfg} {fuel fuel' : Nat} {s : IterState}
    {r : Res (List IterItem)} (h : iterCollect cfg fuel s = some r) (hf : fuel ≤ fuel') :
    iterCollect cfg fuel' s = some r := by
  induction fuel generalizing fuel' s r with
  | zero => simp [iterCollect] at h
  | succ fuel ih =>
    obtain ⟨fuel', rfl⟩ : ∃ f, fuel' = f + 1 := ⟨fuel' - 1, by omega⟩
    simp only [iterCollect] at h ⊢
    split at h
    · exact h
    · exact h
    · exact ih h (by omega)
    · next i s' hs =>
      cases hr : iterCollect cfg fuel s' with
      | none => rw [hr] at h; simp at h
      | some r' =>
        rw [ih hr (by omega)]
        rw [hr] at h
        exact h

theorem bfs_all {cfg : IterCfg} (hc : BfsCfg cfg) {A : List Nat} (hA : Within cfg.alphabetSize A)
    (fuel : Nat) (hf : iterFuel cfg.alphabetSize (bagValue A) ≤ fuel) :
    ∃ out, iterCollect cfg fuel (iterInit (bagValue A)) = some (.ok out) ∧
      BfsOut cfg A [] 0 out := by
  refine bfs_collect hc hA fuel _ [] 0 ?_ ?_
  · refine ⟨?_, by simp, by simp, .inl ⟨(⟨bagValue A, 0⟩, 0), by simp, rfl⟩, by simp, by simp⟩
    intro x hx
    simp only [List.mem_singleton] at hx
    subst hx
    exact ⟨A, List.Subperm.refl A, by simp, rfl, fun m _ => Nat.zero_le m⟩
  · simp only [qwt, List.map_cons, List.map_nil, List.sum_cons, List.sum_nil, wt]
    unfold iterFuel at hf; omega

end Verif.Lemmas
