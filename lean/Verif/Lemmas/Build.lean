import Verif.Lemmas.Index
import Verif.Lemmas.Lm

/-! # The effect of `build` on the index -/
namespace Verif.Lemmas

open Verif.Spec Verif.Model

theorem build_index {m m' : Vm} {o : Orders} (h : m.build o = .ok m') :
    ∃ m1, m.buildIndex o = .ok m1 ∧ m'.index = m1.index ∧ m'.sortedindex = m1.sortedindex ∧
      m'.decoder = m.decoder ∧ m'.encoder = m.encoder ∧ m'.alphabet = m.alphabet := by
  have hc := (build_cases h).1
  simp only [Vm.build, bind_ok] at h
  obtain ⟨m1, h1, h2⟩ := h
  obtain ⟨m2, _, _, hs, _⟩ := buildLm_cases h2
  unfold SameButLm at hs
  refine ⟨m1, h1, ?_, ?_, ?_, ?_, ?_⟩
  · rw [hs]
  · rw [hs]
  · rw [hc]
  · rw [hc]
  · rw [hc]

/-- ids in the index of a built model -/
theorem build_instances {m m' : Vm} {o : Orders} (h : m.build o = .ok m') {k i : Nat}
    {node : AnaIndexNode} (hk : m'.index.get? k = some node) (hi : i ∈ node.instances) :
    ∃ v, m.decoder[i]? = some v ∧ v.vocabtype.indexed = true ∧ anahash m.alphabet v.text = .ok k := by
  obtain ⟨m1, h1, e1, _⟩ := build_index h
  obtain ⟨hs, hh, hn, _, hf, he⟩ := buildIndex_spec h1
  rw [e1] at hk
  by_cases hnil : hs = []
  · rw [he hnil] at hk; simp [HMap.get?] at hk
  · obtain ⟨asz, _, hfill⟩ := hf hnil
    have := (fillIndex_spec hfill (by simp)).2 k
    rw [hk] at this
    simp only [HMap.get?] at this
    have hmem : i ∈ idsFor k hs := by
      cases hids : idsFor k hs with
      | nil => rw [hids] at this; cases this
      | cons a as =>
        rw [hids] at this
        simp only at this
        split at this
        · cases this; exact hi
        · cases this
    obtain ⟨j, v, hj, hv, hx, hy⟩ := hashAll_mem hh (mem_idsFor.mp hmem)
    simp only [Nat.zero_add] at hj
    exact ⟨v, hj ▸ hv, hx, hy⟩

theorem learnId_index {m m' : Vm} {input : List Char} {prev : Option (List Char)} {id : Nat}
    (h : m.learnId input prev = .ok (m', id)) : m'.index = m.index := by
  unfold Vm.learnId at h
  split at h
  · split at h
    · cases h
    · split at h
      · split at h
        · cases h
        · cases h; rfl
      · cases h; rfl
  · rcases add_cases h with ⟨_, _, _, _, _, _, rfl⟩ | ⟨_, _, _, _, _, _, rfl⟩ <;> rfl

theorem addVariantById_index (m : Vm) (r v : Nat) (s : Rat) :
    (m.addVariantById r v s).1.index = m.index := by
  rw [(addVariantById_core m r v s).1]

theorem learnLoop_index {m m' : Vm} {fs : List Finding} {prev : Option (List Char)} {c c' : Nat}
    (h : m.learnLoop fs prev c = .ok (m', c')) : m'.index = m.index := by
  induction fs generalizing m prev c with
  | nil => cases h; rfl
  | cons f fs ih =>
    simp only [Vm.learnLoop, bind_ok] at h
    obtain ⟨⟨m1, id⟩, h1, h2⟩ := h
    have e1 := learnId_index h1
    simp only at h2
    split at h2
    · rw [ih h2, addVariantById_index, e1]
    · rw [ih h2, e1]

/-- an operation leaves the index alone or ends with a build -/
theorem step_index {m m' : Vm} {op : Op} (hinv : Inv m) (h : m.step op = .ok m') :
    m'.index = m.index ∨ ∃ m1 o, Inv m1 ∧ m1.build o = .ok m' := by
  cases op with
  | add text f p =>
    simp only [Vm.step, bind_ok, pure_ok] at h
    obtain ⟨⟨m1, id⟩, h1, rfl⟩ := h
    left
    rcases add_cases h1 with ⟨_, _, _, _, _, _, rfl⟩ | ⟨_, _, _, _, _, _, rfl⟩ <;> rfl
  | addVariant r text s f p =>
    simp only [Vm.step, Vm.addVariant, bind_ok, pure_ok] at h
    obtain ⟨⟨m1, b⟩, ⟨⟨m2, id⟩, h1, h2⟩, rfl⟩ := h
    left
    have : m1 = (m2.addVariantById r id s).1 := by rw [h2]
    subst this
    rw [addVariantById_index]
    rcases add_cases h1 with ⟨_, _, _, _, _, _, rfl⟩ | ⟨_, _, _, _, _, _, rfl⟩ <;> rfl
  | addVariantById r v s =>
    simp only [Vm.step, Except.ok.injEq] at h
    subst h
    exact Or.inl (addVariantById_index _ _ _ _)
  | build o => exact Or.inr ⟨m, o, hinv, h⟩
  | learn fs ab o =>
    simp only [Vm.step, Vm.learnVariants, bind_ok, pure_ok] at h
    obtain ⟨⟨m1, c⟩, ⟨⟨m2, c2⟩, h1, h2⟩, rfl⟩ := h
    simp only at h2
    split at h2
    · simp only [bind_ok, pure_ok, Prod.mk.injEq] at h2
      obtain ⟨m3, h3, rfl, _⟩ := h2
      exact Or.inr ⟨m2, o, (inv_learnLoop hinv h1).1, h3⟩
    · cases h2
      exact Or.inl (learnLoop_index h1)
  | freq => cases h; exact Or.inl rfl
  | lexicon n => cases h; exact Or.inl rfl

theorem build_ids_ge {m m' : Vm} {o : Orders} (hinv : Inv m) (h : m.build o = .ok m') {k i : Nat}
    {node : AnaIndexNode} (hk : m'.index.get? k = some node) (hi : i ∈ node.instances) : 3 ≤ i := by
  obtain ⟨v, hv, hx, _⟩ := build_instances h hk hi
  by_contra hlt
  have := hinv.notIndexed i (by omega) v hv
  rw [this] at hx; cases hx

theorem run_ids_ge {m m' : Vm} {ops : List Op} (hinv : Inv m)
    (hm : ∀ k node, m.index.get? k = some node → ∀ i ∈ node.instances, 3 ≤ i)
    (h : m.run ops = .ok m') :
    ∀ k node, m'.index.get? k = some node → ∀ i ∈ node.instances, 3 ≤ i := by
  induction ops generalizing m with
  | nil => cases h; exact hm
  | cons op ops ih =>
    simp only [Vm.run, bind_ok] at h
    obtain ⟨m1, h1, h2⟩ := h
    refine ih (inv_step hinv h1).1 ?_ h2
    rcases step_index hinv h1 with e | ⟨m0, o, hi0, hb⟩
    · rw [e]; exact hm
    · intro k node hk i hi; exact build_ids_ge hi0 hb hk hi

/-- index of a built model is a function of alphabet and decoder -/
theorem build_index_unique {m n m' n' : Vm} {o o' : Orders} (hd : n.decoder = m.decoder)
    (ha : n.alphabet = m.alphabet) (h : m.build o = .ok m') (h' : n.build o' = .ok n') :
    n'.index = m'.index ∧ ∀ k, n'.sortedindex.get? k = m'.sortedindex.get? k := by
  obtain ⟨m1, h1, e1, s1, _⟩ := build_index h
  obtain ⟨n1, h2, e2, s2, _⟩ := build_index h'
  obtain ⟨hs, hh, _, hs1, hf, he⟩ := buildIndex_spec h1
  obtain ⟨hs', hh', _, hs2, hf', he'⟩ := buildIndex_spec h2
  rw [hd, ha, hh] at hh'
  cases hh'
  have hidx : n1.index = m1.index := by
    by_cases hnil : hs = []
    · rw [he hnil, he' hnil]
    · obtain ⟨a, ha1, hfa⟩ := hf hnil
      obtain ⟨b, hb1, hfb⟩ := hf' hnil
      have : a = b := by
        simp only [Vm.alphabetSize, ha] at ha1 hb1
        rw [ha1] at hb1; cases hb1; rfl
      subst this
      rw [hfa] at hfb; exact (Except.ok.inj hfb).symm
  refine ⟨by rw [e1, e2, hidx], fun k => ?_⟩
  rw [s1, s2, hs1, hs2, hidx, sorted_get, sorted_get]

/-! ## Independence from the order of the secondary index -/

theorem encodeTokens_sorted (m : Vm) (s : HMap Nat (List Nat)) (n : Nat) (ts : List (List Char))
    (u : Option (HMap (List Char) Nat)) :
    Vm.encodeTokens { m with sortedindex := s } n ts u = m.encodeTokens n ts u := by
  induction n generalizing ts u with
  | zero => rfl
  | succ n ih =>
    cases ts with
    | nil => rfl
    | cons t ts =>
      simp only [Vm.encodeTokens, encodeToken_unk, ih, bind, Except.bind]

def setSorted (s : HMap Nat (List Nat)) (x : Vm × Option (HMap (List Char) Nat)) :
    Vm × Option (HMap (List Char) Nat) := ({ x.1 with sortedindex := s }, x.2)

theorem intoNgram_sorted (m : Vm) (s : HMap Nat (List Nat)) (w : Nat)
    (u : Option (HMap (List Char) Nat)) :
    Vm.intoNgram { m with sortedindex := s } w u = m.intoNgram w u := by
  simp only [Vm.intoNgram, encodeTokens_sorted]

theorem lmStep_sorted (m : Vm) (s : HMap Nat (List Nat)) (id : Nat)
    (u : Option (HMap (List Char) Nat)) :
    Vm.lmStep { m with sortedindex := s } id u = (m.lmStep id u).map (setSorted s) := by
  simp only [Vm.lmStep, intoNgram_sorted]
  cases m.decoder[id]? with
  | none => rfl
  | some v =>
    simp only
    split
    · cases m.intoNgram id u with
      | error e => rfl
      | ok r =>
        obtain ⟨g, u1⟩ := r
        cases g with
        | none => rfl
        | some g =>
          simp only [bind, Except.bind]
          cases addFreqSum m.freqSum g.len v.frequency with
          | error e => rfl
          | ok fs =>
            simp only
            cases addNgram m.ngrams g v.frequency <;> rfl
    · rfl

theorem lmLoop_sorted (m : Vm) (s : HMap Nat (List Nat)) (ids : List Nat)
    (u : Option (HMap (List Char) Nat)) :
    Vm.lmLoop { m with sortedindex := s } ids u = (m.lmLoop ids u).map (setSorted s) := by
  induction ids generalizing m u with
  | nil => rfl
  | cons id ids ih =>
    simp only [Vm.lmLoop, lmStep_sorted]
    cases m.lmStep id u with
    | error e => rfl
    | ok r =>
      obtain ⟨m1, u1⟩ := r
      simp only [Except.map, bind, Except.bind, setSorted]
      exact ih m1 u1

theorem buildLm_sorted (m : Vm) (s : HMap Nat (List Nat)) (o o' : Orders) :
    Vm.buildLm { m with sortedindex := s } o' =
      (m.buildLm o).map (fun m' => { m' with sortedindex := s }) := by
  simp only [Vm.buildLm, lmLoop_sorted]
  cases h : m.lmLoop (List.range m.decoder.length) (some []) with
  | error e => rfl
  | ok r =>
    obtain ⟨m1, u1⟩ := r
    obtain ⟨rfl, _, _⟩ := lmLoop_cases h
    have hu : o.unseen [] = [] := List.perm_nil.mp (o.unseen_perm [])
    have hu' : o'.unseen [] = [] := List.perm_nil.mp (o'.unseen_perm [])
    simp only [Except.map, bind, Except.bind, setSorted, hu, hu', Vm.addUnseen]
    rfl

theorem buildIndex_orders (m : Vm) (o o' : Orders) :
    (∃ e, m.buildIndex o = .error e ∧ m.buildIndex o' = .error e) ∨
    ∃ m1 s, m.buildIndex o = .ok m1 ∧ m.buildIndex o' = .ok { m1 with sortedindex := s } ∧
      ∀ n, HMap.get? s n = m1.sortedindex.get? n := by
  simp only [Vm.buildIndex]
  cases hashAll m.alphabet 0 m.decoder with
  | error e => exact .inl ⟨e, rfl, rfl⟩
  | ok hs =>
    cases hs with
    | nil => exact .inr ⟨_, _, rfl, rfl, fun _ => rfl⟩
    | cons x hs =>
      simp only [bind, Except.bind]
      cases m.alphabetSize with
      | error e => exact .inl ⟨e, rfl, rfl⟩
      | ok asz =>
        simp only
        cases fillIndex asz (x :: hs) [] with
        | error e => exact .inl ⟨e, rfl, rfl⟩
        | ok idx =>
          refine .inr ⟨_, _, rfl, rfl, fun n => ?_⟩
          simp only [sorted_get]

end Verif.Lemmas
