import Verif.Lemmas.Build
import Verif.Props.Vocab

/-!
# Properties of the index (C18 – C22)
-/
namespace Verif.Props

open Verif.Spec Verif.Model Verif.Lemmas

/-! ## C18 -/

/-- **C18**: the reserved markers keep ids 0, 1, 2 and are never in the index. -/
theorem reserved_never_indexed (alphabet : Alphabet) (ops : List Op) (m : Vm)
    (h : (Vm.new alphabet).run ops = .ok m) :
    m.encoder.get? "<bos>".toList = some 0 ∧ m.encoder.get? "<eos>".toList = some 1 ∧
    m.encoder.get? "<unk>".toList = some 2 ∧
    ∀ k node, m.index.get? k = some node → 0 ∉ node.instances ∧ 1 ∉ node.instances ∧
      2 ∉ node.instances := by
  have hinv := (inv_run (inv_new alphabet) h).1
  refine ⟨(hinv.bij _ _).mpr hinv.bos, (hinv.bij _ _).mpr hinv.eos, (hinv.bij _ _).mpr hinv.unk, ?_⟩
  intro k node hk
  have hge := run_ids_ge (inv_new alphabet) (by simp [Vm.new, HMap.get?]) h k node hk
  refine ⟨fun h => ?_, fun h => ?_, fun h => ?_⟩ <;> have := hge _ h <;> omega

/-- A history that tries to make a reserved marker searchable. -/
example : ∃ m, (Vm.new exAlphabet).run
    [.add "<unk>".toList none {}, .add ['a'] none {}, .build exOrders] = .ok m ∧
    m.index.length = 1 := ⟨_, rfl, by decide +kernel⟩

/-! ## C19 -/

/-- **C19**: after `build`, `get_anagram_instances` returns exactly the indexed entries that are
anagrams of the text, each once, in order of their ids. -/
theorem anagram_instances_exact (alphabet : Alphabet) (hne : NoEmpty alphabet)
    (hlen : alphabet.length ≤ 167) (ops : List Op) (o : Orders) (m : Vm)
    (h : (Vm.new alphabet).run (ops ++ [.build o]) = .ok m) (text : List Char) :
    ∃ p : VocabValue → Bool, m.getAnagramInstances text = .ok (m.decoder.filter p) ∧
      ∀ v, p v = true ↔ v.vocabtype.check .INDEXED = true ∧
        ∃ c c', Encodes alphabet alphabet.length text c ∧
          Encodes alphabet alphabet.length v.text c' ∧ c.Perm c' := by
  obtain ⟨m0, h0, hb⟩ : ∃ m0, (Vm.new alphabet).run ops = .ok m0 ∧ m0.build o = .ok m := by
    have key : ∀ (ops : List Op) (n : Vm), n.run (ops ++ [.build o]) = .ok m →
        ∃ m0, n.run ops = .ok m0 ∧ m0.build o = .ok m := by
      intro ops
      induction ops with
      | nil =>
        intro n hn
        simp only [List.nil_append, Vm.run, Vm.step, bind_ok] at hn
        obtain ⟨m1, h1, h2⟩ := hn
        cases h2
        exact ⟨n, rfl, h1⟩
      | cons op ops ih =>
        intro n hn
        simp only [List.cons_append, Vm.run, bind_ok] at hn ⊢
        obtain ⟨m1, h1, h2⟩ := hn
        obtain ⟨m0, h3, h4⟩ := ih m1 h2
        exact ⟨m0, ⟨m1, h1, h3⟩, h4⟩
    exact key ops _ h
  have ha0 : m0.alphabet = alphabet := (inv_run (inv_new alphabet) h0).2.1
  obtain ⟨m1, h1, e1, _, e2, _, e3⟩ := build_index hb
  obtain ⟨c, hc⟩ := encodes_exists hne alphabet.length text
  have hh := anahash_eq hlen hc
  refine ⟨fun v => v.vocabtype.indexed && decide (anahash alphabet v.text = .ok (bagValue c)), ?_, ?_⟩
  · simp only [Vm.getAnagramInstances, e3, ha0, hh, bind, Except.bind, e1, e2]
    have hg := index_get h1 (k := bagValue c)
    rw [ha0] at hg
    cases hget : HMap.get? m1.index (bagValue c) with
    | some node => exact (hg.1 node hget).2.1
    | none =>
      simp only [pure, Except.pure]
      congr 1
      symm
      rw [List.filter_eq_nil_iff]
      intro v hv hp
      simp only [Bool.and_eq_true, decide_eq_true_eq] at hp
      refine hg.2 hget ⟨alphabet.length + 1, ?_, ?_⟩ v hv hp.1 hp.2
      · simp only [Vm.alphabetSize, ha0]
        rw [Nat.mod_eq_of_lt (by omega), if_neg (by omega)]
      · intro e he
        rw [charCount_bag (by omega) (encodes_within hc)] at he
        cases he
  · intro v
    have hcheck : v.vocabtype.check .INDEXED = v.vocabtype.indexed := by
      obtain ⟨a, b, c⟩ := v.vocabtype
      cases a <;> cases b <;> cases c <;> rfl
    rw [hcheck, Bool.and_eq_true, decide_eq_true_eq]
    apply and_congr_right
    intro _
    obtain ⟨c', hc'⟩ := encodes_exists hne alphabet.length v.text
    have := anahash_eq_iff_anagram alphabet hlen text v.text c c' hc hc'
    rw [hh] at this
    constructor
    · intro e
      exact ⟨c, c', hc, hc', this.mp e.symm⟩
    · rintro ⟨d, d', hd, hd', hp⟩
      rw [encodes_unique hd hc, encodes_unique hd' hc'] at hp
      exact (this.mpr hp).symm

/-- After the history `ab`, `b`, `ba` (not indexed), `ab`, `build`, `bA` finds `ab`. -/
example : ∃ m, (Vm.new exAlphabet).run (exOps ++ [.build exOrders]) = .ok m ∧
    (m.getAnagramInstances ['b', 'A']).map (List.map VocabValue.text) = .ok [['a', 'b']] :=
  ⟨_, rfl, by decide +kernel⟩

/-- **C19**: after `build`, `has` is true exactly for the indexed entries, and `get` returns the
entry. -/
theorem lookup_exact (alphabet : Alphabet) (hne : NoEmpty alphabet)
    (hlen : alphabet.length ≤ 167) (ops : List Op) (o : Orders) (m : Vm)
    (h : (Vm.new alphabet).run (ops ++ [.build o]) = .ok m) (text : List Char) :
    (∃ b, m.has text = .ok b ∧
      (b = true ↔ ∃ v ∈ m.decoder, v.text = text ∧ v.vocabtype.check .INDEXED = true)) ∧
    (∃ r, m.get text = .ok r ∧
      ∀ v, r = some v ↔ v ∈ m.decoder ∧ v.text = text ∧ v.vocabtype.check .INDEXED = true) := by
  obtain ⟨p, hp, hpv⟩ := anagram_instances_exact alphabet hne hlen ops o m h text
  obtain ⟨c, hc⟩ := encodes_exists hne alphabet.length text
  have hself : ∀ v : VocabValue, v.text = text → (p v = true ↔ v.vocabtype.check .INDEXED = true) := by
    intro v hv
    rw [hpv]
    constructor
    · exact fun h => h.1
    · exact fun h => ⟨h, c, c, hc, hv ▸ hc, .refl _⟩
  have hbij := vocabulary_bijection alphabet _ m h
  constructor
  · refine ⟨_, by simp only [Vm.has, hp, bind, Except.bind]; rfl, ?_⟩
    simp only [List.any_eq_true, List.mem_filter, beq_iff_eq]
    constructor
    · rintro ⟨v, ⟨h1, h2⟩, h3⟩
      exact ⟨v, h1, h3, (hself v h3).mp h2⟩
    · rintro ⟨v, h1, h2, h3⟩
      exact ⟨v, ⟨h1, (hself v h2).mpr h3⟩, h2⟩
  · refine ⟨_, by simp only [Vm.get, hp, bind, Except.bind]; rfl, ?_⟩
    intro v
    constructor
    · intro hf
      have h1 := List.find?_some hf
      have h2 := List.mem_of_find?_eq_some hf
      simp only [beq_iff_eq] at h1
      rw [List.mem_filter] at h2
      exact ⟨h2.1, h1, (hself v h1).mp h2.2⟩
    · rintro ⟨h1, h2, h3⟩
      cases hf : (m.decoder.filter p).find? (fun v => v.text == text) with
      | none =>
        have := List.find?_eq_none.mp hf v (List.mem_filter.mpr ⟨h1, (hself v h2).mpr h3⟩)
        simp [h2] at this
      | some w =>
        have h4 := List.find?_some hf
        have h5 := (List.mem_filter.mp (List.mem_of_find?_eq_some hf)).1
        simp only [beq_iff_eq] at h4
        obtain ⟨i, hi⟩ := List.getElem?_of_mem h1
        obtain ⟨j, hj⟩ := List.getElem?_of_mem h5
        have a := (hbij text i).mpr ⟨v, hi, h2⟩
        have b := (hbij text j).mpr ⟨w, hj, h4⟩
        rw [a] at b; cases b
        rw [hi] at hj; exact hj.symm

example : ∃ m, (Vm.new exAlphabet).run (exOps ++ [.build exOrders]) = .ok m ∧
    m.has ['a', 'b'] = .ok true ∧ m.has ['b', 'a'] = .ok false :=
  ⟨_, rfl, by decide +kernel, by decide +kernel⟩

/-! ## C20 -/

/-- **C20**: after `build`, the secondary index lists exactly the anagram values of the primary
index, each only under the number of its symbols, ascending and without repetition. -/
theorem secondary_index_exact (alphabet : Alphabet) (hne : NoEmpty alphabet)
    (hlen : alphabet.length ≤ 167) (ops : List Op) (m0 m : Vm) (o : Orders)
    (h : (Vm.new alphabet).run ops = .ok m0) (hb : m0.build o = .ok m) :
    (∀ n keys, m.sortedindex.get? n = some keys → keys ≠ [] ∧ keys.Pairwise (· < ·)) ∧
    ∀ v ∈ m.decoder, v.vocabtype.check .INDEXED = true → ∀ c,
      Encodes alphabet alphabet.length v.text c → c.length < 65536 →
      (∃ keys, m.sortedindex.get? c.length = some keys ∧ bagValue c ∈ keys) ∧
      (∀ n keys, m.sortedindex.get? n = some keys → bagValue c ∈ keys → n = c.length) := by
  have ha0 : m0.alphabet = alphabet := (inv_run (inv_new alphabet) h).2.1
  obtain ⟨m1, h1, e1, e1', e2, _, e3⟩ := build_index hb
  obtain ⟨hs, hh, hnd, hsrt, _, _⟩ := buildIndex_spec h1
  have hget : ∀ n, m.sortedindex.get? n =
      match ((m.index.filter (fun x => x.2.charcount = n)).map Prod.fst) with
      | [] => none
      | h :: hs => some ((h :: hs).insertionSort (· ≤ ·)) := by
    intro n; rw [e1', hsrt, sorted_get, e1]; rfl
  have hmem : ∀ n keys, m.sortedindex.get? n = some keys →
      keys.Perm ((m.index.filter (fun x => x.2.charcount = n)).map Prod.fst) ∧ keys ≠ [] ∧
      keys.Pairwise (· < ·) := by
    intro n keys hk
    rw [hget n] at hk
    have hnd' : ((m.index.filter (fun x => x.2.charcount = n)).map Prod.fst).Nodup := by
      rw [e1]; exact hnd.sublist (List.Sublist.map _ List.filter_sublist)
    split at hk
    · cases hk
    · next a as ha =>
      cases hk
      have hperm : ((a :: as).insertionSort (· ≤ ·)).Perm (a :: as) :=
        List.perm_insertionSort _ _
      rw [ha]
      refine ⟨hperm, fun e => ?_, ?_⟩
      · rw [e] at hperm; exact absurd hperm.symm.eq_nil (by simp)
      · have hs : ((a :: as).insertionSort (· ≤ ·)).Pairwise (· ≤ ·) :=
          List.pairwise_insertionSort (α := Nat) (· ≤ ·) _
        rw [ha] at hnd'
        have hn2 : ((a :: as).insertionSort (· ≤ ·)).Nodup := hperm.nodup_iff.mpr hnd'
        refine List.Pairwise.imp₂ (fun x y h1 h2 => ?_) hs hn2
        omega
  refine ⟨fun n keys hk => (hmem n keys hk).2, ?_⟩
  intro v hv hi c hc hcl
  have hcheck : v.vocabtype.indexed = true := by
    generalize v.vocabtype = x at hi
    obtain ⟨a, b, c⟩ := x
    cases a <;> cases b <;> cases c <;> first | rfl | exact hi
  have hash := anahash_eq hlen hc
  have hasz : m0.alphabetSize = .ok (alphabet.length + 1) := by
    simp only [Vm.alphabetSize, ha0]
    rw [Nat.mod_eq_of_lt (by omega), if_neg (by omega)]
  have hcc : charCount (bagValue c) (alphabet.length + 1) = .ok c.length := by
    rw [charCount_bag (by omega) (encodes_within hc), Nat.mod_eq_of_lt hcl]
  have hg := index_get h1 (k := bagValue c)
  rw [e2] at hv
  obtain ⟨node, hnode⟩ : ∃ node, m1.index.get? (bagValue c) = some node := by
    cases hx : HMap.get? m1.index (bagValue c) with
    | some node => exact ⟨node, rfl⟩
    | none =>
      exact absurd (ha0 ▸ hash) (hg.2 hx ⟨_, hasz, by intro e he; rw [hcc] at he; cases he⟩ v hv hcheck)
  obtain ⟨_, _, asz, ha, hcn⟩ := hg.1 node hnode
  rw [hasz] at ha; cases ha
  rw [hcc] at hcn
  have hcn : node.charcount = c.length := (Except.ok.inj hcn).symm
  have hin : (bagValue c, node) ∈ m.index := by rw [e1]; exact mem_of_get? hnode
  have hfil : bagValue c ∈ (m.index.filter (fun x => x.2.charcount = c.length)).map Prod.fst :=
    List.mem_map.mpr ⟨_, List.mem_filter.mpr ⟨hin, by simpa using hcn⟩, rfl⟩
  constructor
  · cases hk : HMap.get? m.sortedindex c.length with
    | some keys => exact ⟨keys, rfl, (hmem _ _ hk).1.mem_iff.mpr hfil⟩
    | none =>
      rw [hget] at hk
      split at hk
      · next e => rw [e] at hfil; cases hfil
      · cases hk
  · intro n keys hk hkin
    obtain ⟨⟨k, nd⟩, hx, hxe⟩ := List.mem_map.mp ((hmem n keys hk).1.mem_iff.mp hkin)
    obtain ⟨hx1, hx2⟩ := List.mem_filter.mp hx
    simp only at hxe hx2
    subst hxe
    rw [e1] at hx1
    have := get?_of_mem hnd hx1
    rw [hnode] at this
    cases this
    simp only [decide_eq_true_eq] at hx2
    omega

example : ∃ m0 m, (Vm.new exAlphabet).run exOps = .ok m0 ∧ m0.build exOrders = .ok m ∧
    m.decoder.length = 6 := ⟨_, _, rfl, rfl, by decide +kernel⟩

/-- **C20**: conversely every value in the secondary index is in the primary index. -/
theorem secondary_index_sound (m0 m : Vm) (o : Orders) (hb : m0.build o = .ok m) (n : Nat)
    (keys : List Nat) (hk : m.sortedindex.get? n = some keys) (k : Nat) (hkk : k ∈ keys) :
    ∃ node, m.index.get? k = some node ∧ node.charcount = n := by
  obtain ⟨m1, h1, e1, e1', _⟩ := build_index hb
  obtain ⟨hs, hh, hnd, hsrt, _, _⟩ := buildIndex_spec h1
  rw [e1', hsrt, sorted_get] at hk
  split at hk
  · cases hk
  · next a as ha =>
    cases hk
    have := (List.perm_insertionSort (· ≤ ·) (a :: as)).mem_iff.mp hkk
    rw [← ha] at this
    obtain ⟨⟨k', nd⟩, hx, hxe⟩ := List.mem_map.mp this
    obtain ⟨hx1, hx2⟩ := List.mem_filter.mp hx
    simp only at hxe hx2
    subst hxe
    exact ⟨nd, by rw [e1]; exact get?_of_mem hnd hx1, by simpa using hx2⟩

example : ∃ m0 m keys, (Vm.new exAlphabet).run exOps = .ok m0 ∧ m0.build exOrders = .ok m ∧
    m.sortedindex.get? 2 = some keys := ⟨_, _, _, rfl, rfl, rfl⟩

/-! ## C21 -/

/-- **C21**: building again leaves index, secondary index and vocabulary unchanged; if no entry
belongs to the language model, also all counts.  (Missing for the full claim: the counts in
general, see `rebuild_doubles_counts` and `rebuild_idempotent_fails`.) -/
theorem rebuild_idempotent_partial (alphabet : Alphabet) (ops : List Op) (m0 m1 m2 : Vm)
    (o o' : Orders) (h : (Vm.new alphabet).run ops = .ok m0)
    (h1 : m0.build o = .ok m1) (h2 : m1.build o' = .ok m2) :
    m2.index = m1.index ∧ (∀ n, m2.sortedindex.get? n = m1.sortedindex.get? n) ∧
    m2.decoder = m1.decoder ∧ m2.encoder = m1.encoder ∧
    ((∀ v ∈ m0.decoder, v.vocabtype.check .LM = false) → (∀ v ∈ m0.decoder, spaces v.text < 255) →
      ∀ g, (m2.ngrams.get? g).getD 0 = (m1.ngrams.get? g).getD 0) := by
  obtain ⟨_, _, _, _, e2, e4, e3⟩ := build_index h1
  obtain ⟨_, _, _, _, e2', e4', e3'⟩ := build_index h2
  obtain ⟨a, b⟩ := build_index_unique e2 e3 h1 h2
  refine ⟨a, b, e2', e4', ?_⟩
  intro hlm hs g
  have hinv := (inv_run (inv_new alphabet) h).1
  have hinv1 := (inv_build hinv h1).1
  have hc := (build_counts hinv1 (by rw [e2]; exact hs) h2).1 g
  have hz : (m1.decoder.map (contrib m1 g)).sum = 0 := by
    apply List.sum_eq_zero
    intro x hx
    obtain ⟨v, hv, rfl⟩ := List.mem_map.mp hx
    have := hlm v (e2 ▸ hv)
    rw [check_lm] at this
    simp [contrib, this]
  rw [hz] at hc
  exact hc

example : ∃ m0 m1 m2, (Vm.new exAlphabet).run exOps = .ok m0 ∧ m0.build exOrders = .ok m1 ∧
    m1.build exOrders = .ok m2 ∧ ∀ v ∈ m0.decoder, v.vocabtype.check .LM = false :=
  ⟨_, _, _, rfl, rfl, rfl, by decide +kernel⟩

/-- **C21**, what happens to the counts: on a model without counts, the second build doubles what
the first one computed. -/
theorem rebuild_doubles_counts (alphabet : Alphabet) (ops : List Op) (m0 m1 m2 : Vm)
    (o o' : Orders) (h : (Vm.new alphabet).run ops = .ok m0) (hempty : m0.ngrams = [])
    (hs : ∀ v ∈ m0.decoder, spaces v.text < 255)
    (h1 : m0.build o = .ok m1) (h2 : m1.build o' = .ok m2) (g : NGram) :
    (m2.ngrams.get? g).getD 0 = 2 * (m1.ngrams.get? g).getD 0 := by
  obtain ⟨_, _, _, _, e2, e4, e3⟩ := build_index h1
  have hinv := (inv_run (inv_new alphabet) h).1
  have hinv1 := (inv_build hinv h1).1
  have c1 := (build_counts hinv hs h1).1 g
  have c2 := (build_counts hinv1 (by rw [e2]; exact hs) h2).1 g
  have hcon : contrib m1 g = contrib m0 g := by
    funext v; simp only [contrib, tokenIds_congr e4]
  rw [e2, hcon] at c2
  rw [hempty] at c1
  simp only [count, HMap.get?, Option.getD_none] at c1 c2
  omega

example : ∃ m0 m1 m2, (Vm.new exAlphabet).run [.add ['a'] (some 3) { vocabType := .LM }] = .ok m0 ∧
    m0.ngrams = [] ∧ m0.build exOrders = .ok m1 ∧ m1.build exOrders = .ok m2 ∧
    (m1.ngrams.get? (.uni 3)).getD 0 = 3 ∧ (m2.ngrams.get? (.uni 3)).getD 0 = 6 :=
  ⟨_, _, _, rfl, rfl, rfl, rfl, by decide +kernel, by decide +kernel⟩

/-- **C21** fails for the counts. -/
theorem rebuild_idempotent_fails :
    ¬ ∀ (alphabet : Alphabet) (ops : List Op) (m0 m1 m2 : Vm) (o o' : Orders),
      (Vm.new alphabet).run ops = .ok m0 → m0.build o = .ok m1 → m1.build o' = .ok m2 →
      ∀ g, m2.ngrams.get? g = m1.ngrams.get? g := by
  intro hall
  have := hall exAlphabet [.add ['a'] (some 3) { vocabType := .LM }] _ _ _ exOrders exOrders
    rfl rfl rfl (.uni 3)
  revert this
  decide +kernel

/-! ## C22, state after `build` -/

/-- **C22** (build): with any two iteration orders, `build` fails in the same way or gives the same
model; the secondary index, itself a map, has the same value for every key. -/
theorem build_order_independent (m : Vm) (o o' : Orders) :
    (∃ e, m.build o = .error e ∧ m.build o' = .error e) ∨
    ∃ m1 s, m.build o = .ok m1 ∧ m.build o' = .ok { m1 with sortedindex := s } ∧
      ∀ n, HMap.get? s n = m1.sortedindex.get? n := by
  simp only [Vm.build]
  rcases buildIndex_orders m o o' with ⟨e, h1, h2⟩ | ⟨m1, s, h1, h2, hs⟩
  · exact .inl ⟨e, by rw [h1]; rfl, by rw [h2]; rfl⟩
  · rw [h1, h2]
    simp only [bind, Except.bind]
    rw [buildLm_sorted m1 s o o']
    cases hl : m1.buildLm o with
    | error e => exact .inl ⟨e, rfl, rfl⟩
    | ok m2 =>
      refine .inr ⟨m2, s, rfl, rfl, fun n => ?_⟩
      rw [hs]
      obtain ⟨_, _, _, hsame, _⟩ := buildLm_cases hl
      unfold SameButLm at hsame
      rw [hsame]

/-- reversed iteration -/
def exOrders' : Orders := ⟨List.reverse, List.reverse, List.reverse_perm, List.reverse_perm⟩

example : ∃ m m', (Vm.new exAlphabet).run exOps = .ok m ∧ m.build exOrders' = .ok m' ∧
    m'.sortedindex.length = 2 := ⟨_, _, rfl, rfl, by decide +kernel⟩

end Verif.Props
