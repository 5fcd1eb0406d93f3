import Verif.Spec.Load
import Verif.Props.Files

/-!
# Lemmas: loading as a history
-/
namespace Verif.Lemmas

open Verif.Spec Verif.Model Verif.Props

/-- The variants recorded for an entry are entries. -/
def VariantsExist (m : Vm) : Prop :=
  ∀ v ∈ m.decoder, ∀ id s, VariantReference.referenceFor id s ∈ v.variants.getD [] → id < m.decoder.length

theorem variantsExist_new (alphabet : Alphabet) : VariantsExist (Vm.new alphabet) := by
  intro v hv id s h
  simp only [Vm.new, List.mem_cons, List.not_mem_nil, or_false] at hv
  rcases hv with rfl | rfl | rfl <;> cases h

theorem variantsExist_add {m m' : Vm} {text : List Char} {f : Option Nat} {p : VocabParams} {id : Nat}
    (hv : VariantsExist m) (h : m.addToVocabulary text f p = .ok (m', id)) : VariantsExist m' := by
  rcases add_cases h with ⟨item, freq, _, hd, _, _, rfl⟩ | ⟨norm, _, rfl, _, _, _, rfl⟩
  · intro w hw i s hi
    show i < (m.decoder.set id _).length
    rw [List.length_set]
    rcases List.mem_or_eq_of_mem_set hw with hw | rfl
    · exact hv w hw i s hi
    · exact hv item (List.mem_of_getElem? hd) i s hi
  · intro w hw i s hi
    show i < (m.decoder ++ [_]).length
    rw [List.length_append]
    rcases List.mem_append.mp hw with hw | hw
    · have := hv w hw i s hi
      omega
    · rw [List.mem_singleton] at hw
      subst hw
      simp [fresh] at hi

theorem variantsExist_byId {m : Vm} {r v : Nat} {s : Rat} (hv : VariantsExist m)
    (hlt : v < m.decoder.length) : VariantsExist (m.addVariantById r v s).1 := by
  unfold Vm.addVariantById
  split
  · intro w hw i s' hi
    show i < ((m.decoder.modify r _).modify v _).length
    rw [List.length_modify, List.length_modify]
    have h1 : ∀ y ∈ m.decoder.modify r (linkReference v s), ∀ i s',
        VariantReference.referenceFor i s' ∈ y.variants.getD [] → i < m.decoder.length := by
      intro y hy i s' hi
      rcases mem_modify hy with hy | ⟨z, hz, rfl⟩
      · exact hv y hy i s' hi
      · unfold linkReference at hi
        split at hi
        · simp only [Option.getD_some, List.mem_singleton, VariantReference.referenceFor.injEq] at hi
          rw [hi.1]; exact hlt
        · next refs hrefs =>
          split at hi
          · exact hv z hz i s' hi
          · simp only [Option.getD_some, List.mem_append, List.mem_singleton,
              VariantReference.referenceFor.injEq] at hi
            rcases hi with hi | hi
            · exact hv z hz i s' (by rw [hrefs]; exact hi)
            · rw [hi.1]; exact hlt
    rcases mem_modify hw with hw | ⟨z, hz, rfl⟩
    · exact h1 w hw i s' hi
    · unfold linkVariant at hi
      split at hi
      · simp at hi
      · next refs hrefs =>
        split at hi
        · exact h1 z hz i s' hi
        · simp only [Option.getD_some, List.mem_append, List.mem_singleton, reduceCtorEq,
            or_false] at hi
          exact h1 z hz i s' (by rw [hrefs]; exact hi)
  · exact hv

theorem variantsExist_build {m m' : Vm} {o : Orders} (hv : VariantsExist m) (h : m.build o = .ok m') :
    VariantsExist m' := by
  unfold VariantsExist
  rw [(build_cases h).1]
  exact hv

/-- A part of a history that leads from `m` to `m'` and adds `adds`. -/
structure Loads (m m' : Vm) (ops : List Op) (adds : List (List Char × Option Nat × VocabParams)) :
    Prop where
  run : m.run ops = .ok m'
  learn : NoLearning ops
  links : ∀ y ∈ ops.flatMap opLinks, ∃ t, textAt m' y.1 = some t
  adds : ∀ t, additions t ops = addsOf t adds
  variants : VariantsExist m → VariantsExist m'

theorem additions_append (t : List Char) (ops ops' : List Op) :
    additions t (ops ++ ops') = additions t ops ++ additions t ops' := by
  simp only [additions_eq, List.filterMap_append]

theorem addsOf_append (t : List Char) (a b : List (List Char × Option Nat × VocabParams)) :
    addsOf t (a ++ b) = addsOf t a ++ addsOf t b := by
  simp only [addsOf, List.filter_append, List.map_append]

theorem Loads.refl (m : Vm) : Loads m m [] [] :=
  ⟨rfl, fun _ _ _ => by simp, by simp, fun _ => rfl, id⟩

theorem Loads.trans {m m1 m2 : Vm} {ops ops' : List Op}
    {a b : List (List Char × Option Nat × VocabParams)} (hinv : Inv m1) (h : Loads m m1 ops a)
    (h' : Loads m1 m2 ops' b) : Loads m m2 (ops ++ ops') (a ++ b) := by
  refine ⟨run_append_ok h.run h'.run, ?_, ?_, ?_, fun hv => h'.variants (h.variants hv)⟩
  · intro f ab o hm
    rcases List.mem_append.mp hm with hm | hm
    · exact h.learn f ab o hm
    · exact h'.learn f ab o hm
  · intro y hy
    rw [List.flatMap_append] at hy
    rcases List.mem_append.mp hy with hy | hy
    · obtain ⟨t, ht⟩ := h.links y hy
      exact ⟨t, (inv_run hinv h'.run).2.2 _ _ ht⟩
    · exact h'.links y hy
  · intro t
    rw [additions_append, addsOf_append, h.adds, h'.adds]

theorem Loads.inv {m m' : Vm} {ops : List Op} {a : List (List Char × Option Nat × VocabParams)}
    (hinv : Inv m) (h : Loads m m' ops a) : Inv m' := (inv_run hinv h.run).1

theorem loads_add {m m' : Vm} {text : List Char} {f : Option Nat} {p : VocabParams} {id : Nat}
    (h : m.addToVocabulary text f p = .ok (m', id)) :
    Loads m m' [.add text f p] [(text, f, p)] := by
  refine ⟨bind_ok.mpr ⟨m', bind_ok.mpr ⟨_, h, rfl⟩, rfl⟩, fun _ _ _ => by simp, by simp [opLinks], ?_,
    fun hv => variantsExist_add hv h⟩
  intro t
  by_cases e : t = text
  · simp [additions, addsOf, e]
  · simp [additions, addsOf, e, Ne.symm e]

theorem loads_freq (m : Vm) : Loads m { m with haveFreq := true } [.freq] [] :=
  ⟨rfl, fun _ _ _ => by simp, by simp [opLinks], fun _ => rfl, id⟩

theorem loads_lexicon (m : Vm) (name : List Char) :
    Loads m { m with lexicons := m.lexicons ++ [name] } [.lexicon name] [] :=
  ⟨rfl, fun _ _ _ => by simp, by simp [opLinks], fun _ => rfl, id⟩

theorem loads_addVariant {m m' : Vm} {refId : Nat} {text : List Char} {s : Rat} {f : Option Nat}
    {p : VocabParams} {b : Bool} (hinv : Inv m) (hr : ∃ t, textAt m refId = some t)
    (h : m.addVariant refId text s f p = .ok (m', b)) :
    Loads m m' [.addVariant refId text s f p] [(text, f, p)] := by
  have hrun : m.run [.addVariant refId text s f p] = .ok m' :=
    bind_ok.mpr ⟨m', bind_ok.mpr ⟨_, h, rfl⟩, rfl⟩
  have hvar : VariantsExist m → VariantsExist m' := by
    intro hv
    obtain ⟨⟨m1, id⟩, h1, h2⟩ := bind_ok.mp h
    obtain ⟨a1, _, a3⟩ := inv_add hinv h1
    have := variantsExist_byId (r := refId) (v := id) (s := s) (variantsExist_add hv h1)
      (textAt_lt ((a1.bij _ _).mp a3))
    rw [pure_ok.mp h2] at this
    exact this
  refine ⟨hrun, fun _ _ _ => by simp, ?_, ?_, hvar⟩
  · intro y hy
    simp only [List.flatMap_cons, List.flatMap_nil, List.append_nil, opLinks, List.mem_singleton] at hy
    subst hy
    obtain ⟨t, ht⟩ := hr
    exact ⟨t, (inv_run hinv hrun).2.2 _ _ ht⟩
  · intro t
    by_cases e : t = text
    · simp [additions, addsOf, e]
    · simp [additions, addsOf, e, Ne.symm e]

theorem loads_addOps {params : VocabParams} {entries : List (List Char × Nat)} {m m' : Vm}
    (hinv : Inv m)
    (h : m.run (entries.map fun e => .add e.1 (some e.2) params) = .ok m') :
    Loads m m' (entries.map fun e => .add e.1 (some e.2) params)
      (entries.map fun e => (e.1, some e.2, params)) := by
  induction entries generalizing m with
  | nil => cases h; exact .refl _
  | cons e es ih =>
    obtain ⟨m1, h1, h2⟩ := bind_ok.mp h
    obtain ⟨⟨m2, id⟩, h3, h4⟩ := bind_ok.mp h1
    cases pure_ok.mp h4
    have l1 := loads_add h3
    exact l1.trans (l1.inv hinv) (ih (l1.inv hinv) h2)

theorem loads_addVariants {params : VocabParams} {refId : Nat} {m m' : Vm} (hinv : Inv m)
    (hr : ∃ t, textAt m refId = some t) {vs : List (List Char × Rat × Option Nat)}
    (h : addVariants params refId m vs = .ok m') :
    ∃ ops, Loads m m' ops (vs.map fun v => (v.1, v.2.2, params)) := by
  induction vs generalizing m with
  | nil => cases h; exact ⟨[], .refl _⟩
  | cons v vs ih =>
    obtain ⟨⟨m1, b⟩, h1, h2⟩ := bind_ok.mp h
    have l1 := loads_addVariant hinv hr h1
    have hr1 : ∃ t, textAt m1 refId = some t := by
      obtain ⟨t, ht⟩ := hr
      exact ⟨t, (inv_run hinv l1.run).2.2 _ _ ht⟩
    obtain ⟨ops, l2⟩ := ih (l1.inv hinv) hr1 h2
    exact ⟨_, l1.trans (l1.inv hinv) l2⟩

theorem loads_addEntries {params variantParams : VocabParams} {m m' : Vm} (hinv : Inv m)
    {es : List VariantEntry} (h : addEntries params variantParams m es = .ok m') :
    ∃ ops, Loads m m' ops (es.flatMap fun e => (e.reference, e.freq, params) ::
      e.variants.map fun v => (v.1, v.2.2, variantParams)) := by
  induction es generalizing m with
  | nil => cases h; exact ⟨[], .refl _⟩
  | cons e es ih =>
    obtain ⟨⟨m1, id⟩, h1, h⟩ := bind_ok.mp h
    obtain ⟨m2, h2, h3⟩ := bind_ok.mp h
    have l1 := loads_add h1
    obtain ⟨a1, _, a3⟩ := inv_add hinv h1
    obtain ⟨ops2, l2⟩ := loads_addVariants a1 ⟨_, (a1.bij _ _).mp a3⟩ h2
    obtain ⟨ops3, l3⟩ := ih (l2.inv a1) h3
    exact ⟨_, (l1.trans a1 l2).trans (l2.inv a1) l3⟩

theorem loads_vocabulary {m m' : Vm} (hinv : Inv m) {f : List Char} {params : VocabParams}
    {lines : List (Option (List Char))} (h : m.readVocabulary f params lines = .ok m') :
    ∃ es ops, List.Forall₂ (VocabLine params) (nonEmpty lines) es ∧
      Loads m m' ops (es.map fun e => (e.1, some e.2, { params with index := m.lexicons.length % 256 })) ∧
      m'.lexicons = m.lexicons ++ [f] := by
  obtain ⟨es, m1, h1, h2, rfl⟩ := (read_vocabulary _ _ _ _ _).mp h
  have l1 := loads_addOps hinv h2
  obtain ⟨f1, f2⟩ := addOps_fields h2
  have i1 := l1.inv hinv
  suffices hops : ∃ ops, Loads m { m1 with
      lexicons := m.lexicons ++ [f]
      haveFreq := m.haveFreq || (params.freqColumn.isSome && params.vocabType.check .INDEXED
        && !es.isEmpty) } ops
      (es.map fun e => (e.1, some e.2, { params with index := m.lexicons.length % 256 })) by
    obtain ⟨ops, h⟩ := hops
    exact ⟨es, ops, h1, h, rfl⟩
  cases params.freqColumn.isSome && params.vocabType.check .INDEXED && !es.isEmpty with
  | true =>
    have l2 := (loads_freq m1).trans ((loads_freq m1).inv i1) (loads_lexicon { m1 with haveFreq := true } f)
    have l3 := l1.trans i1 l2
    simp only [List.append_nil] at l3
    have e : ({ m1 with lexicons := m.lexicons ++ [f], haveFreq := m.haveFreq || true } : Vm) =
        { ({ m1 with haveFreq := true } : Vm) with lexicons := m1.lexicons ++ [f] } := by
      rw [f2, Bool.or_true]
    rw [e]
    exact ⟨_, l3⟩
  | false =>
    have l3 := l1.trans i1 (loads_lexicon m1 f)
    simp only [List.append_nil] at l3
    have e : ({ m1 with lexicons := m.lexicons ++ [f], haveFreq := m.haveFreq || false } : Vm) =
        { m1 with lexicons := m1.lexicons ++ [f] } := by
      rw [f2, Bool.or_false, ← f1]
    rw [e]
    exact ⟨_, l3⟩

theorem loads_variants {m m' : Vm} (hinv : Inv m) {f : List Char}
    {parseF64 : List Char → Option Rat} {params : Option VocabParams} {transparent : Bool}
    {lines : List (Option (List Char))}
    (h : m.readVariants parseF64 f params transparent lines = .ok m') :
    ∃ es ops, VariantLines parseF64 none (nonEmpty lines) es ∧
      Loads m m' ops (es.flatMap fun e =>
        (e.reference, e.freq, { params.getD {} with index := m.lexicons.length % 256 }) ::
        e.variants.map fun v => (v.1, v.2.2, { params.getD {} with
            index := m.lexicons.length % 256
            vocabType := { (params.getD {}).vocabType with
              transparent := (params.getD {}).vocabType.transparent || transparent } })) ∧
      m'.lexicons = m.lexicons ++ [f] := by
  obtain ⟨es, m1, h1, h2, rfl⟩ := (read_variants _ _ _ _ _ _ _).mp h
  obtain ⟨ops, l1⟩ := loads_addEntries hinv h2
  have l3 := l1.trans (l1.inv hinv) (loads_lexicon m1 f)
  simp only [List.append_nil] at l3
  have e : ({ m1 with lexicons := m.lexicons ++ [f] } : Vm) =
      { m1 with lexicons := m1.lexicons ++ [f] } := by rw [addEntries_lexicons h2]
  rw [← e] at l3
  exact ⟨es, _, h1, l3, rfl⟩

theorem open_ok {x : LoadExt} {f : List Char} {lines : List (Option (List Char))} :
    x.open f = .ok lines ↔ x.file f = some lines := by
  unfold LoadExt.open
  cases x.file f <;> simp

theorem loads_resource {x : LoadExt} {m m' : Vm} (hinv : Inv m) {r : Resource}
    (h : m.readResource x r = .ok m') :
    ∃ ops a, Adds x (m.lexicons.length % 256) (sourceOf r) a ∧ Loads m m' ops a ∧
      m'.lexicons = m.lexicons ++ [(sourceOf r).name] := by
  cases r with
  | lexicon f =>
    obtain ⟨lines, h1, h2⟩ := bind_ok.mp h
    obtain ⟨es, ops, h3, h4, h5⟩ := loads_vocabulary hinv h2
    exact ⟨ops, _, .lexicon (open_ok.mp h1) h3, h4, h5⟩
  | variantList f =>
    obtain ⟨lines, h1, h2⟩ := bind_ok.mp h
    obtain ⟨es, ops, h3, h4, h5⟩ := loads_variants hinv h2
    exact ⟨ops, _, .variants (open_ok.mp h1) h3, h4, h5⟩
  | errorList f =>
    obtain ⟨lines, h1, h2⟩ := bind_ok.mp h
    obtain ⟨es, ops, h3, h4, h5⟩ := loads_variants hinv h2
    exact ⟨ops, _, .errors (open_ok.mp h1) h3, h4, h5⟩

theorem vocabLine_columns {p p' : VocabParams} (h1 : p.textColumn = p'.textColumn)
    (h2 : p.freqColumn = p'.freqColumn) : VocabLine p = VocabLine p' := by
  funext l e
  simp only [VocabLine, h1, h2]

theorem loads_resources {x : LoadExt} {rs : List Resource} : ∀ {m m' : Vm}, Inv m →
    m.readResources x rs = .ok m' →
    ∃ ops as, AddsAll x m.lexicons.length (rs.map sourceOf) as ∧ Loads m m' ops as.flatten ∧
      m'.lexicons = m.lexicons ++ (rs.map sourceOf).map Source.name := by
  induction rs with
  | nil =>
    intro m m' hinv h
    cases h
    exact ⟨[], [], .nil, .refl _, by simp⟩
  | cons r rs ih =>
    intro m m' hinv h
    obtain ⟨m1, h1, h2⟩ := bind_ok.mp h
    obtain ⟨ops, a, g1, g2, g3⟩ := loads_resource hinv h1
    obtain ⟨ops', as, g4, g5, g6⟩ := ih (g2.inv hinv) h2
    refine ⟨_, a :: as, .cons g1 ?_, g2.trans (g2.inv hinv) g5, ?_⟩
    · rw [g3] at g4
      simpa using g4
    · rw [g6, g3]
      simp

theorem loads_lms {x : LoadExt} {fs : List (List Char)} : ∀ {m m' : Vm}, Inv m →
    m.readLms x fs = .ok m' →
    ∃ ops as, AddsAll x m.lexicons.length (fs.map .lm) as ∧ Loads m m' ops as.flatten ∧
      m'.lexicons = m.lexicons ++ (fs.map .lm).map Source.name := by
  induction fs with
  | nil =>
    intro m m' hinv h
    cases h
    exact ⟨[], [], .nil, .refl _, by simp⟩
  | cons f fs ih =>
    intro m m' hinv h
    obtain ⟨lines, h1, h⟩ := bind_ok.mp h
    obtain ⟨m1, h2, h3⟩ := bind_ok.mp h
    obtain ⟨es, ops, g1, g2, g3⟩ := loads_vocabulary hinv h2
    obtain ⟨ops', as, g4, g5, g6⟩ := ih (g2.inv hinv) h3
    refine ⟨_, _ :: as, .cons (.lm (es := es) (open_ok.mp h1) ?_) ?_, g2.trans (g2.inv hinv) g5, ?_⟩
    · rw [vocabLine_columns (p := { vocabType := .LM }) (p' := {}) rfl rfl] at g1
      exact g1
    · rw [g3] at g4
      simpa using g4
    · rw [g6, g3]
      simp [Source.name]

theorem addsAll_append {x : LoadExt} {ss ss' : List Source} : ∀ {i : Nat}
    {as as' : List (List (List Char × Option Nat × VocabParams))}, AddsAll x i ss as →
    AddsAll x (i + ss.length) ss' as' → AddsAll x i (ss ++ ss') (as ++ as') := by
  induction ss with
  | nil => intro i as as' h h'; cases h; exact h'
  | cons s ss ih =>
    intro i as as' h h'
    cases h with
    | cons h1 h2 =>
      refine .cons h1 (ih h2 ?_)
      rw [List.length_cons] at h'
      rwa [Nat.add_assoc, Nat.add_comm 1]

end Verif.Lemmas
