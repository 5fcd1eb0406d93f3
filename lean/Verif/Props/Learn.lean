import Verif.Lemmas.Learn
import Verif.Props.NGram

/-!
# Properties of variant links, learning and the reverse index (C57 – C59)
-/
namespace Verif.Props

open Verif.Spec Verif.Model Verif.Lemmas

/-! ## C57 -/

/-- **C57**: learning does not change ids or texts, links every learned form with its reference in
both directions (unless they are the same entry), and returns the number of these findings. -/
theorem learn_links (alphabet : Alphabet) (ops : List Op) (m m' : Vm)
    (h : (Vm.new alphabet).run ops = .ok m) (findings : List Finding) (autoBuild : Bool)
    (o : Orders) (count : Nat) (hl : m.learnVariants findings autoBuild o = .ok (m', count))
    (hvalid : ∀ f ∈ findings, f.vocabId < m.decoder.length) :
    (∀ t i, m.encoder.get? t = some i → m'.encoder.get? t = some i) ∧
    count = (findings.filter fun f => decide (m'.encoder.get? f.input ≠ some f.vocabId)).length ∧
    ∀ f ∈ findings, ∃ id, m'.encoder.get? f.input = some id ∧ (id ≠ f.vocabId →
      (∃ s, HasLink m' f.vocabId (.referenceFor id s)) ∧
      HasLink m' id (.variantOf f.vocabId f.distScore)) := by
  have hinv := (inv_run (inv_new alphabet) h).1
  have hns := (linkExt_run h).noSelf (noSelf_new alphabet)
  obtain ⟨hinv', ext⟩ := inv_learn hinv hl
  refine ⟨fun t i hi => (hinv'.bij t i).mpr (ext.2 i t ((hinv.bij t i).mp hi)), ?_⟩
  simp only [Vm.learnVariants, bind_ok] at hl
  obtain ⟨⟨m1, c1⟩, h1, h2⟩ := hl
  obtain ⟨hc, hall⟩ := learnLoop_links hinv hns h1
  have key : ∀ {m' : Vm}, m'.encoder = m1.encoder → m'.decoder = m1.decoder → count = c1 →
      count = (findings.filter fun f => decide (m'.encoder.get? f.input ≠ some f.vocabId)).length ∧
      ∀ f ∈ findings, ∃ id, m'.encoder.get? f.input = some id ∧ (id ≠ f.vocabId →
        (∃ s, HasLink m' f.vocabId (.referenceFor id s)) ∧
        HasLink m' id (.variantOf f.vocabId f.distScore)) := by
    intro m' e1 e2 e3
    refine ⟨by rw [e1, e3, hc]; simp, fun f hf => ?_⟩
    obtain ⟨id, ha, hb⟩ := hall f hf
    refine ⟨id, by rw [e1]; exact ha, fun hne => ?_⟩
    obtain ⟨⟨s, h3⟩, h4⟩ := hb (hvalid f hf) hne
    exact ⟨⟨s, by simpa only [HasLink, e2] using h3⟩, by simpa only [HasLink, e2] using h4⟩
  simp only at h2
  split at h2
  · simp only [bind_ok, pure_ok, Prod.mk.injEq] at h2
    obtain ⟨m2, h3, rfl, rfl⟩ := h2
    obtain ⟨_, _, _, _, e, e', _⟩ := build_index h3
    exact key e' e rfl
  · cases h2
    exact key rfl rfl rfl

/-- Findings: the new form `aab` for entry 3 (twice), and entry 3 for itself. -/
def exFindings : List Finding :=
  [⟨['a', 'a', 'b'], 3, 4/5⟩, ⟨['a', 'a', 'b'], 4, 1/2⟩, ⟨['a', 'b'], 3, 1⟩]

example : ∃ m m', (Vm.new exAlphabet).run exOps = .ok m ∧
    m.learnVariants exFindings true exOrders = .ok (m', 2) ∧
    ∀ f ∈ exFindings, f.vocabId < m.decoder.length := ⟨_, _, rfl, rfl, by decide +kernel⟩

/-- **C57**: learned forms are not added to the index: on a built model, learning with automatic
rebuild leaves both indices as they are. -/
theorem learn_keeps_index (m0 m m' : Vm) (o o' : Orders) (hb : m0.build o = .ok m)
    (findings : List Finding) (count : Nat)
    (hl : m.learnVariants findings true o' = .ok (m', count)) (hinv : Inv m0) :
    m'.index = m.index ∧ ∀ n, m'.sortedindex.get? n = m.sortedindex.get? n := by
  simp only [Vm.learnVariants, bind_ok, if_true, pure_ok, Prod.mk.injEq] at hl
  obtain ⟨⟨m1, c1⟩, h1, m2, h3, rfl, _⟩ := hl
  obtain ⟨_, _, _, _, e2, _, e3⟩ := build_index hb
  have ha := (inv_learnLoop (inv_build hinv hb).1 h1).2.1
  refine build_index_of_hashAll (ha.trans e3) ?_ hb h3
  rw [sigExt_hashAll (learnLoop_sig h1), e2]

example : ∃ m0 m m', (Vm.new exAlphabet).run exOps = .ok m0 ∧ m0.build exOrders = .ok m ∧
    m.learnVariants exFindings true exOrders = .ok (m', 2) ∧ Inv m0 := by
  refine ⟨_, _, _, rfl, rfl, rfl, ?_⟩
  exact (inv_run (inv_new exAlphabet) (ops := exOps) rfl).1

/-- **C57**, consequence: a learned form that was not in the vocabulary is not found by `has` after
the rebuild. -/
theorem learned_form_not_found (alphabet : Alphabet) (hne : NoEmpty alphabet)
    (hlen : alphabet.length ≤ 167) (ops : List Op) (m m' : Vm) (o o' : Orders)
    (h : (Vm.new alphabet).run (ops ++ [.build o]) = .ok m) (findings : List Finding) (count : Nat)
    (hl : m.learnVariants findings true o' = .ok (m', count)) (t : List Char)
    (ht : m.encoder.get? t = none) : m'.has t = .ok false := by
  have hrun : (Vm.new alphabet).run ((ops ++ [.build o] ++ [.learn findings false o']) ++ [.build o'])
      = .ok m' := by
    have happ : ∀ (a b : List Op) (n n' : Vm), n.run a = .ok n' → n.run (a ++ b) = n'.run b := by
      intro a b
      induction a with
      | nil => intro n n' h; cases h; rfl
      | cons x a ih =>
        intro n n' h
        simp only [Vm.run, bind_ok] at h
        obtain ⟨n1, h1, h2⟩ := h
        simp only [List.cons_append, Vm.run, h1, bind, Except.bind]
        exact ih n1 n' h2
    rw [List.append_assoc, happ _ _ _ _ h]
    simp only [Vm.learnVariants, bind_ok, if_true, pure_ok, Prod.mk.injEq] at hl
    obtain ⟨⟨m1, c1⟩, h1, m2, h3, rfl, _⟩ := hl
    simp only [List.singleton_append, List.cons_append, List.nil_append, Vm.run, Vm.step,
      Vm.learnVariants, h1, bind, Except.bind, Bool.false_eq_true, if_false, pure, Except.pure, h3]
  obtain ⟨⟨b, hb, hiff⟩, _⟩ := lookup_exact alphabet hne hlen _ o' m' hrun t
  rw [hb]
  congr 1
  rw [Bool.eq_false_iff]
  intro hbt
  obtain ⟨v, hv, hvt, hvi⟩ := hiff.mp hbt
  -- the entry is new, hence not indexed
  have hinv := (inv_run (inv_new alphabet) h).1
  simp only [Vm.learnVariants, bind_ok, if_true, pure_ok, Prod.mk.injEq] at hl
  obtain ⟨⟨m1, c1⟩, h1, m2, h3, rfl, _⟩ := hl
  obtain ⟨_, _, _, _, e2, _, _⟩ := build_index h3
  obtain ⟨e, hsig, hfalse⟩ := learnLoop_sig h1
  rw [check_indexed] at hvi
  have : sig v ∈ m.decoder.map sig ++ e := by
    rw [← hsig, ← e2]; exact List.mem_map.mpr ⟨v, hv, rfl⟩
  rcases List.mem_append.mp this with hx | hx
  · obtain ⟨w, hw, hs⟩ := List.mem_map.mp hx
    obtain ⟨i, hi⟩ := List.getElem?_of_mem hw
    have hwt : w.text = t := by
      have := congrArg Prod.fst hs
      simp only [sig] at this
      rw [this, hvt]
    have := (hinv.bij t i).mpr (by simp [textAt, hi, hwt])
    rw [ht] at this; cases this
  · have := hfalse _ hx
    simp only [sig] at this
    rw [this] at hvi; cases hvi

example : ∃ m m', (Vm.new exAlphabet).run (exOps ++ [.build exOrders]) = .ok m ∧
    m.learnVariants exFindings true exOrders = .ok (m', 2) ∧
    m.encoder.get? ['a', 'a', 'b'] = none ∧ m'.encoder.get? ['a', 'a', 'b'] = some 6 :=
  ⟨_, _, rfl, rfl, by decide +kernel, by decide +kernel⟩

/-! ## C58 -/

/-- **C58**, what holds: repeating a link changes nothing on the side of the reference, and nothing
at any third entry.  (Missing for the full claim: the side of the variant gets a second
`VariantOf`, see `add_variant_twice` and `add_variant_idempotent_fails`.) -/
theorem add_variant_idempotent_partial (m : Vm) (refId variantId : Nat) (s s' : Rat) (i : Nat)
    (hi : i ≠ variantId) :
    (((m.addVariantById refId variantId s).1.addVariantById refId variantId s').1.decoder[i]?).map links
      = ((m.addVariantById refId variantId s).1.decoder[i]?).map links := by
  by_cases hne : variantId = refId
  · simp [Vm.addVariantById, hne]
  · rw [addVariantById_links hne s' i]
    rw [addVariantById_links hne s i]
    by_cases h1 : i = refId
    · have hlk := addVariantById_links (m := m) hne s i
      simp only [if_pos h1] at hlk ⊢
      cases hd : m.decoder[i]? with
      | none =>
        rw [hd, Option.map_none, Option.map_eq_none_iff] at hlk
        rw [hlk]; rfl
      | some w =>
        rw [hd, Option.map_some, Option.map_eq_some_iff] at hlk
        obtain ⟨w', hw', e⟩ := hlk
        rw [hw']
        simp only [Option.map_some, Option.some.injEq]
        have hex : ∃ s', VariantReference.referenceFor variantId s' ∈ links w' := by
          rw [e]
          split
          · next h => exact h
          · exact ⟨s, by simp⟩
        rw [if_pos hex, e]
    · simp only [if_neg h1, if_neg hi]
      rw [show (m.decoder[i]?).map (fun w => links w) =
        ((m.addVariantById refId variantId s).1.decoder[i]?).map links by
          rw [addVariantById_links hne s i]; simp only [if_neg h1, if_neg hi]]

example : ∃ m, (Vm.new exAlphabet).run exOps = .ok m ∧ (3 : Nat) ≠ 4 := ⟨_, rfl, by decide⟩

/-- **C58**, what happens on the side of the variant: every call appends a link. -/
theorem add_variant_twice (alphabet : Alphabet) (ops : List Op) (m : Vm)
    (h : (Vm.new alphabet).run ops = .ok m) (refId variantId : Nat) (hne : variantId ≠ refId)
    (s : Rat) (v : VocabValue) (hv : m.decoder[variantId]? = some v) :
    ((m.addVariantById refId variantId s).1.decoder[variantId]?).map links =
      some (links v ++ [.variantOf refId s]) := by
  have hns := (linkExt_run h).noSelf (noSelf_new alphabet)
  rw [addVariantById_links hne s variantId, hv, Option.map_some, if_neg hne, if_pos rfl]
  rw [if_neg]
  rintro ⟨s', hx⟩
  exact hns variantId s' ⟨v, hv, hx⟩

example : ∃ m, (Vm.new exAlphabet).run exOps = .ok m ∧ ∃ v, m.decoder[5]? = some v :=
  ⟨_, rfl, _, rfl⟩

/-- **C58** fails: a link made twice is there twice. -/
theorem add_variant_idempotent_fails :
    ¬ ∀ (alphabet : Alphabet) (ops : List Op) (m : Vm), (Vm.new alphabet).run ops = .ok m →
      ∀ refId variantId s,
        ((m.addVariantById refId variantId s).1.addVariantById refId variantId s).1.decoder =
          (m.addVariantById refId variantId s).1.decoder := by
  intro hall
  have := hall exAlphabet [.add ['a'] none {}, .add ['b'] none {}] _ rfl 3 4 1
  revert this
  decide +kernel

/-! ## C59 -/

/-- a call of `add_to_reverse_index` -/
structure RevCall where
  input : List Char
  matched : Nat
  score : Rat

/-- what a call contributes for item `item` -/
def RevCall.entry (m : Vm) (item : Nat) (c : RevCall) : Option (Variant × Rat) :=
  if c.matched = item then
    match m.encoder.get? c.input with
    | some id => if id = item then none else some (.known id, c.score)
    | none => some (.unknown c.input, c.score)
  else none

/-- **C59**: after any sequence of calls, an item has exactly the entries of the non-exact calls for
it, in order. -/
theorem reverse_index_exact (m : Vm) (calls : List RevCall) (rev : HMap Nat (List (Variant × Rat)))
    (item : Nat) :
    ((calls.foldl (fun r c => m.addToReverseIndex r c.input c.matched c.score) rev).get? item).getD []
      = (rev.get? item).getD [] ++ calls.filterMap (RevCall.entry m item) := by
  induction calls generalizing rev with
  | nil => simp
  | cons c calls ih =>
    rw [List.foldl_cons, ih, List.filterMap_cons]
    have hstep : ((m.addToReverseIndex rev c.input c.matched c.score).get? item).getD [] =
        (rev.get? item).getD [] ++ (RevCall.entry m item c).toList := by
      unfold Vm.addToReverseIndex RevCall.entry
      have hpush : ∀ v : Variant, ((match rev.get? c.matched with
          | some existing => rev.insert c.matched (existing ++ [(v, c.score)])
          | none => rev.insert c.matched [(v, c.score)] : HMap Nat (List (Variant × Rat))).get? item).getD []
          = (rev.get? item).getD [] ++ (if c.matched = item then [(v, c.score)] else []) := by
        intro v
        by_cases e : c.matched = item
        · subst e
          cases hr : rev.get? c.matched <;> simp [get?_insert]
        · cases hr : rev.get? c.matched <;> simp [get?_insert, e]
      cases henc : m.encoder.get? c.input with
      | none =>
        simp only
        refine (hpush _).trans ?_
        by_cases e : c.matched = item <;> simp [e]
      | some id =>
        simp only
        by_cases e1 : id = c.matched
        · rw [if_pos e1]
          by_cases e : c.matched = item
          · rw [if_pos e, if_pos (e1.trans e)]; simp
          · simp [e]
        · rw [if_neg e1]
          refine (hpush _).trans ?_
          by_cases e : c.matched = item
          · rw [if_pos e, if_pos e, if_neg (fun h => e1 (h.trans e.symm))]; simp
          · simp [e]
    rw [hstep, List.append_assoc]
    congr 1
    cases RevCall.entry m item c <;> rfl

example : ∃ m, (Vm.new exAlphabet).run exOps = .ok m ∧
    ((m.addToReverseIndex (m.addToReverseIndex [] ['b'] 3 (1/2)) ['x'] 3 (1/3)).get? 3)
      = some [(.known 4, 1/2), (.unknown ['x'], 1/3)] := ⟨_, rfl, by decide +kernel⟩

end Verif.Props
