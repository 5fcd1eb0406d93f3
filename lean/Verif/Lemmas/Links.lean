import Verif.Lemmas.Built
import Verif.Spec.History
import Verif.Spec.Score

/-! # The references recorded by a history -/
namespace Verif.Lemmas

open Verif.Spec Verif.Model

/-- what a property of the list of references must satisfy to hold throughout -/
structure LinkStep (P : Option (List VariantReference) → Prop) (L : Nat → Rat → Prop) : Prop where
  none : P none
  ref : ∀ r s vid v, L r s → P v.variants → P (linkReference vid s v).variants
  var : ∀ r s vid v, L r s → P v.variants → P (linkVariant r vid s v).variants

variable {P : Option (List VariantReference) → Prop} {L : Nat → Rat → Prop}

/-- the property holds for all entries -/
def AllLinks (P : Option (List VariantReference) → Prop) (m : Vm) : Prop :=
  ∀ v ∈ m.decoder, P v.variants

theorem allLinks_set {m : Vm} (h : AllLinks P m) {i : Nat} {v v' : VocabValue}
    (hv : m.decoder[i]? = some v) (e : v'.variants = v.variants) :
    AllLinks P { m with decoder := m.decoder.set i v' } := by
  intro w hw
  rcases List.mem_or_eq_of_mem_set hw with hw | rfl
  · exact h w hw
  · rw [e]; exact h v (List.mem_of_getElem? hv)

theorem allLinks_add (hs : LinkStep P L) {m m' : Vm} {text : List Char} {f : Option Nat}
    {p : VocabParams} {id : Nat} (hinv : AllLinks P m)
    (h : m.addToVocabulary text f p = .ok (m', id)) : AllLinks P m' := by
  rcases add_cases h with ⟨item, freq, he, hd, _, _, rfl⟩ | ⟨norm, he, rfl, _, hn, hsz, rfl⟩
  · exact allLinks_set hinv hd rfl
  · intro w hw
    rcases List.mem_append.mp hw with hw | hw
    · exact hinv w hw
    · rw [List.mem_singleton] at hw
      subst hw
      exact hs.none

theorem mem_modify {α : Type} {l : List α} {i : Nat} {f : α → α} {x : α} (h : x ∈ l.modify i f) :
    x ∈ l ∨ ∃ y ∈ l, x = f y := by
  obtain ⟨j, hj⟩ := List.getElem?_of_mem h
  rw [modify_getElem?] at hj
  split at hj
  · obtain ⟨y, hy, rfl⟩ := Option.map_eq_some_iff.mp hj
    exact .inr ⟨y, List.mem_of_getElem? hy, rfl⟩
  · exact .inl (List.mem_of_getElem? hj)

theorem allLinks_byId (hs : LinkStep P L) {m : Vm} (hinv : AllLinks P m) {r v : Nat} {s : Rat}
    (hL : L r s) : AllLinks P (m.addVariantById r v s).1 := by
  unfold Vm.addVariantById
  split
  · intro w hw
    have h1 : ∀ y ∈ m.decoder.modify r (linkReference v s), P y.variants := by
      intro y hy
      rcases mem_modify hy with hy | ⟨z, hz, rfl⟩
      · exact hinv y hy
      · exact hs.ref r s v z hL (hinv z hz)
    rcases mem_modify hw with hw | ⟨z, hz, rfl⟩
    · exact h1 w hw
    · exact hs.var r s v z hL (h1 z hz)
  · exact hinv

theorem allLinks_learnLoop (hs : LinkStep P L) {m m' : Vm} {fs : List Finding}
    {prev : Option (List Char)} {c c' : Nat} (hinv : AllLinks P m)
    (hL : ∀ f ∈ fs, L f.vocabId f.distScore)
    (h : m.learnLoop fs prev c = .ok (m', c')) : AllLinks P m' := by
  induction fs generalizing m prev c with
  | nil => cases h; exact hinv
  | cons f fs ih =>
    simp only [Vm.learnLoop, bind_ok] at h
    obtain ⟨⟨m1, id⟩, h1, h2⟩ := h
    have a1 : AllLinks P m1 := by
      unfold Vm.learnId at h1
      split at h1
      · split at h1
        · cases h1
        · next item hitem =>
          split at h1
          · split at h1
            · cases h1
            · cases h1
              exact allLinks_set hinv hitem rfl
          · cases h1; exact hinv
      · exact allLinks_add hs hinv h1
    have hL' : ∀ f ∈ fs, L f.vocabId f.distScore := fun g hg => hL g (List.mem_cons_of_mem _ hg)
    split at h2
    · exact ih (allLinks_byId hs a1 (hL f List.mem_cons_self)) hL' h2
    · exact ih a1 hL' h2

theorem allLinks_build {m m' : Vm} {o : Orders} (hinv : AllLinks P m) (h : m.build o = .ok m') :
    AllLinks P m' := by
  obtain ⟨_, _, _, _, e1, _, _⟩ := build_index h
  unfold AllLinks
  rw [e1]; exact hinv

theorem allLinks_step (hs : LinkStep P L) {m m' : Vm} {op : Op} (hinv : AllLinks P m)
    (hL : ∀ x ∈ opLinks op, L x.1 x.2) (h : m.step op = .ok m') : AllLinks P m' := by
  cases op with
  | add t f p =>
    simp only [Vm.step, bind_ok, pure_ok] at h
    obtain ⟨⟨m1, id⟩, h1, rfl⟩ := h
    exact allLinks_add hs hinv h1
  | addVariant r t s f p =>
    simp only [Vm.step, Vm.addVariant, bind_ok, pure_ok] at h
    obtain ⟨⟨m2, x⟩, ⟨⟨m1, id⟩, h1, h2⟩, rfl⟩ := h
    have c := allLinks_byId hs (allLinks_add hs hinv h1) (v := id) (hL (r, s) (by simp [opLinks]))
    simp only at h2
    rw [h2] at c
    exact c
  | addVariantById r v s =>
    simp only [Vm.step, Except.ok.injEq] at h
    subst h
    exact allLinks_byId hs hinv (hL (r, s) (by simp [opLinks]))
  | build o => exact allLinks_build hinv h
  | learn fs ab o =>
    simp only [Vm.step, Vm.learnVariants, bind_ok, pure_ok] at h
    obtain ⟨⟨m2, c⟩, ⟨⟨m1, c1⟩, h1, h2⟩, rfl⟩ := h
    have a1 := allLinks_learnLoop hs hinv (fun f hf => hL (f.vocabId, f.distScore)
      (List.mem_map.mpr ⟨f, hf, rfl⟩)) h1
    split at h2
    · simp only [bind_ok, pure_ok, Prod.mk.injEq] at h2
      obtain ⟨m3, h3, rfl, _⟩ := h2
      exact allLinks_build a1 h3
    · cases h2; exact a1
  | freq => cases h; exact hinv
  | lexicon n => cases h; exact hinv

theorem allLinks_run (hs : LinkStep P L) {m m' : Vm} {ops : List Op} (hinv : AllLinks P m)
    (hL : ∀ op ∈ ops, ∀ x ∈ opLinks op, L x.1 x.2) (h : m.run ops = .ok m') : AllLinks P m' := by
  induction ops generalizing m with
  | nil => cases h; exact hinv
  | cons op ops ih =>
    simp only [Vm.run, bind_ok] at h
    obtain ⟨m1, h1, h2⟩ := h
    exact ih (allLinks_step hs hinv (hL op List.mem_cons_self) h1)
      (fun o ho => hL o (List.mem_cons_of_mem _ ho)) h2

theorem allLinks_new (hs : LinkStep P L) (alphabet : Alphabet) : AllLinks P (Vm.new alphabet) := by
  intro v hv
  simp only [Vm.new, List.mem_cons, List.not_mem_nil, or_false] at hv
  rcases hv with rfl | rfl | rfl <;> exact hs.none

/-- Every reference recorded was asked for. -/
theorem links_of_run {alphabet : Alphabet} {ops : List Op} {m : Vm}
    (h : (Vm.new alphabet).run ops = .ok m) : ∀ v ∈ m.decoder, ∀ t s,
      VariantReference.variantOf t s ∈ v.variants.getD [] → (t, s) ∈ ops.flatMap opLinks := by
  have hs : LinkStep (fun vs => ∀ t s, VariantReference.variantOf t s ∈ vs.getD [] →
      (t, s) ∈ ops.flatMap opLinks) (fun t s => (t, s) ∈ ops.flatMap opLinks) := by
    refine ⟨by simp, ?_, ?_⟩
    · intro r s vid v _ hv t s' ht
      unfold linkReference at ht
      split at ht
      · simp at ht
      · next refs hrefs =>
        split at ht
        · exact hv t s' ht
        · simp only [Option.getD_some, List.mem_append, List.mem_singleton, reduceCtorEq,
            or_false] at ht
          exact hv t s' (by rw [hrefs]; exact ht)
    · intro r s vid v hL hv t s' ht
      unfold linkVariant at ht
      split at ht
      · simp only [Option.getD_some, List.mem_singleton, VariantReference.variantOf.injEq] at ht
        rw [ht.1, ht.2]; exact hL
      · next refs hrefs =>
        split at ht
        · exact hv t s' ht
        · simp only [Option.getD_some, List.mem_append, List.mem_singleton,
            VariantReference.variantOf.injEq] at ht
          rcases ht with ht | ht
          · exact hv t s' (by rw [hrefs]; exact ht)
          · rw [ht.1, ht.2]; exact hL
  exact allLinks_run hs (allLinks_new hs alphabet)
    (fun op hop x hx => List.mem_flatMap.mpr ⟨op, hop, hx⟩) h

/-- A history that records no references gives a model without. -/
theorem noLinks_of_run {alphabet : Alphabet} {ops : List Op} {m : Vm}
    (h : (Vm.new alphabet).run ops = .ok m) (hops : ops.flatMap opLinks = []) : NoLinks m := by
  have hs : LinkStep (fun vs => vs = none) (fun _ _ => False) :=
    ⟨rfl, fun _ _ _ _ h => h.elim, fun _ _ _ _ h => h.elim⟩
  refine allLinks_run hs (allLinks_new hs alphabet) (fun op hop x hx => ?_) h
  have : x ∈ ops.flatMap opLinks := List.mem_flatMap.mpr ⟨op, hop, hx⟩
  rw [hops] at this
  cases this

theorem refsExist_of_run {alphabet : Alphabet} {ops : List Op} {m : Vm}
    (h : (Vm.new alphabet).run ops = .ok m)
    (hops : ∀ x ∈ ops.flatMap opLinks, x.1 < m.decoder.length) : RefsExist m :=
  fun v hv t s ht => hops (t, s) (links_of_run h v hv t s ht)

end Verif.Lemmas
