import Verif.Lemmas.Agree
import Verif.Lemmas.Cli
import Verif.Model.Tool

/-!
# Runs of the tool that differ in orders only
-/
namespace Verif.Lemmas

open Verif.Spec Verif.Model Verif.Props

/-- Both fail, or both succeed with related values. -/
def Rel {α β : Type} (R : α → β → Prop) : Res α → Res β → Prop
  | .ok a, .ok b => R a b
  | .error _, .error _ => True
  | _, _ => False

theorem Rel.refl {α : Type} {R : α → α → Prop} (h : ∀ a, R a a) (r : Res α) : Rel R r r := by
  cases r with
  | ok a => exact h a
  | error e => trivial

theorem Rel.of_eq {α : Type} {r r' : Res α} (h : r = r') : Rel Eq r r' := h ▸ Rel.refl (fun _ => rfl) r

theorem Rel.bind {α β γ δ : Type} {R : α → β → Prop} {Q : γ → δ → Prop} {r : Res α} {r' : Res β}
    {f : α → Res γ} {g : β → Res δ} (h : Rel R r r') (hf : ∀ a b, R a b → Rel Q (f a) (g b)) :
    Rel Q (r >>= f) (r' >>= g) := by
  cases r with
  | ok a =>
    cases r' with
    | ok b => exact hf a b h
    | error e => exact h.elim
  | error e =>
    cases r' with
    | ok b => exact h.elim
    | error e' => trivial

theorem Rel.bind_same {α γ δ : Type} {Q : γ → δ → Prop} (r : Res α) {f : α → Res γ} {g : α → Res δ}
    (hf : ∀ a, Rel Q (f a) (g a)) : Rel Q (r >>= f) (r >>= g) :=
  (Rel.refl (R := Eq) (fun _ => rfl) r).bind fun a _ e => e ▸ hf a

theorem rel_eq {α : Type} {r r' : Res α} : Rel Eq r r' ↔ ∀ a, r = .ok a ↔ r' = .ok a := by
  cases r with
  | ok a =>
    cases r' with
    | ok b =>
      constructor
      · intro h; cases h; intro a; rfl
      · intro h; exact (Except.ok.inj ((h a).mp rfl)).symm
    | error e =>
      constructor
      · intro h; exact h.elim
      · intro h; have := (h a).mp rfl; cases this
  | error e =>
    cases r' with
    | ok b =>
      constructor
      · intro h; exact h.elim
      · intro h; have := (h b).mpr rfl; cases this
    | error e' => simp [Rel]

theorem Rel.trans_eq {α : Type} {r1 r2 r3 : Res α} (h1 : Rel Eq r1 r2) (h2 : Rel Eq r2 r3) : Rel Eq r1 r3 :=
  rel_eq.mpr fun a => (rel_eq.mp h1 a).trans (rel_eq.mp h2 a)

theorem Rel.symm_eq {α : Type} {r1 r2 : Res α} (h1 : Rel Eq r1 r2) : Rel Eq r2 r1 :=
  rel_eq.mpr fun a => (rel_eq.mp h1 a).symm

/-- The same model, but for the order of the secondary index. -/
def SameVm (m m' : Vm) : Prop :=
  ∃ s, m' = { m with sortedindex := s } ∧ ∀ n, HMap.get? s n = HMap.get? m.sortedindex n

theorem SameVm.refl (m : Vm) : SameVm m m := ⟨m.sortedindex, rfl, fun _ => rfl⟩

theorem build_rel (m : Vm) (o o' : Orders) : Rel SameVm (m.build o) (m.build o') := by
  rcases build_order_independent m o o' with ⟨e, h1, h2⟩ | ⟨m1, s, h1, h2, h3⟩
  · rw [h1, h2]; trivial
  · rw [h1, h2]; exact ⟨s, rfl, h3⟩

/-! ## Learning -/

section
variable (m : Vm) (s : HMap Nat (List Nat))

theorem addToVocabulary_sorted (t : List Char) (f : Option Nat) (p : VocabParams) :
    Vm.addToVocabulary { m with sortedindex := s } t f p =
      (m.addToVocabulary t f p).map fun r => ({ r.1 with sortedindex := s }, r.2) := by
  simp only [Vm.addToVocabulary]
  cases m.encoder.get? t with
  | some id =>
    simp only
    cases m.decoder[id]? with
    | none => rfl
    | some v =>
      simp only
      cases combineFreq p.freqHandling v.frequency (f.getD 1) with
      | error e => rfl
      | ok fr =>
        cases shiftBit p.index <;> rfl
  | none =>
    simp only
    cases normalizeToAlphabet m.alphabet t with
    | error e => rfl
    | ok n =>
      cases shiftBit p.index with
      | error e => rfl
      | ok b =>
        simp only [bind, Except.bind]
        split <;> rfl

theorem learnId_sorted (i : List Char) (prev : Option (List Char)) :
    Vm.learnId { m with sortedindex := s } i prev =
      (m.learnId i prev).map fun r => ({ r.1 with sortedindex := s }, r.2) := by
  simp only [Vm.learnId, addToVocabulary_sorted]
  cases m.encoder.get? i with
  | none => rfl
  | some id =>
    simp only
    cases m.decoder[id]? with
    | none => rfl
    | some v =>
      simp only
      split
      · split <;> rfl
      · rfl

theorem learnLoop_sorted (fs : List Finding) (prev : Option (List Char)) (count : Nat) :
    Vm.learnLoop { m with sortedindex := s } fs prev count =
      (m.learnLoop fs prev count).map fun r => ({ r.1 with sortedindex := s }, r.2) := by
  induction fs generalizing m prev count with
  | nil => rfl
  | cons f fs ih =>
    simp only [Vm.learnLoop, learnId_sorted]
    cases m.learnId f.input prev with
    | error e => rfl
    | ok r =>
      obtain ⟨m1, id⟩ := r
      simp only [Except.map, bind, Except.bind]
      by_cases h1 : f.vocabId = id
      · simp only [h1, ne_eq, not_true_eq_false, if_false]
        exact ih m1 _ _
      · simp only [ne_eq, h1, not_false_eq_true, if_true]
        have : Vm.addVariantById { m1 with sortedindex := s } f.vocabId id f.distScore =
            ({ (m1.addVariantById f.vocabId id f.distScore).1 with sortedindex := s },
              (m1.addVariantById f.vocabId id f.distScore).2) := by
          unfold Vm.addVariantById
          split <;> rfl
        rw [this]
        exact ih _ _ _

theorem build_sorted (o : Orders) : Vm.build { m with sortedindex := s } o = m.build o := by
  have : Vm.buildIndex { m with sortedindex := s } o = m.buildIndex o := by
    simp only [Vm.buildIndex, Vm.alphabetSize]
  simp only [Vm.build, this]

end

/-- The relation between results of learning. -/
def SameLearned (r r' : Vm × Nat) : Prop := SameVm r.1 r'.1 ∧ r.2 = r'.2

/-- A search with other orders, schedules and number of threads. -/
structure SameExt (x x' : TextExt) : Prop where
  same : ∃ lo sched h, x' = { withLookups x lo with sched := sched, sched_perm := h }

/-- The same parameters, but for the number of threads. -/
def SameParams (p p' : TextParams) : Prop := ∃ b, p' = { p with singleThread := b }

theorem rel_of_toOption {α : Type} {r r' : Res α} (h : r.toOption = r'.toOption) : Rel Eq r r' := by
  cases r <;> cases r' <;> simp_all [Except.toOption, Rel]

theorem findAllMatches_threads (m : Vm) (x : TextExt) (cfg : TextConfig) (p : TextParams)
    (sched : Nat → List Nat) (h : ∀ n, (sched n).Perm (List.range n)) (b : Bool) (text : List Char) :
    Rel Eq (m.findAllMatches x cfg p text)
      (m.findAllMatches { x with sched := sched, sched_perm := h } cfg { p with singleThread := b } text) := by
  have key : ∀ (sched : Nat → List Nat) (h : ∀ n, (sched n).Perm (List.range n)) (b : Bool),
      Rel Eq (m.findAllMatches { x with sched := sched, sched_perm := h } cfg { p with singleThread := b } text)
        (m.findAllMatches x cfg { p with singleThread := true } text) := by
    intro sched h b
    cases b with
    | false => exact rel_of_toOption (parallel_search sched h)
    | true =>
      refine .trans_eq ?_ (rel_of_toOption (parallel_search sched h))
      refine .symm_eq ?_
      exact rel_of_toOption (parallel_search (x := { x with sched := sched, sched_perm := h }) sched h)
  exact (key x.sched x.sched_perm p.singleThread).trans_eq (key sched h b).symm_eq

theorem findAllMatches_rel {m m' : Vm} {x x' : TextExt} {p p' : TextParams} (hm : SameVm m m')
    (hx : SameExt x x') (hp : SameParams p p') (cfg : TextConfig) (text : List Char) :
    Rel Eq (m.findAllMatches x cfg p text) (m'.findAllMatches x' cfg p' text) := by
  obtain ⟨s, rfl, hs⟩ := hm
  obtain ⟨lo, sched, h, rfl⟩ := hx
  obtain ⟨b, rfl⟩ := hp
  refine .trans_eq (findAllMatches_threads m x cfg p sched h b text) (.of_eq ?_)
  exact (findAllMatches_sorted m s { x with sched := sched, sched_perm := h } lo hs cfg _ text).symm

theorem findVariants_same {m m' : Vm} {x x' : TextExt} (hm : SameVm m m') (hx : SameExt x x')
    (cfg : Config) (p : Params) (input : List Char) :
    m'.findVariants x'.toExt cfg p input = m.findVariants x.toExt cfg p input := by
  obtain ⟨s, rfl, hs⟩ := hm
  obtain ⟨lo, sched, h, rfl⟩ := hx
  rw [findVariants_sorted m s hs]
  exact (find_variants_order_independent m x.toExt lo cfg p input).symm

theorem findForLearning_rel {m m' : Vm} {x x' : TextExt} {p p' : TextParams} (hm : SameVm m m')
    (hx : SameExt x x') (hp : SameParams p p') (cfg : TextConfig) (strict : Bool) (input : List Char) :
    Rel Eq (m.findForLearning x cfg p strict input) (m'.findForLearning x' cfg p' strict input) := by
  unfold Vm.findForLearning
  cases strict with
  | true =>
    simp only [if_true]
    rw [findVariants_same hm hx]
    obtain ⟨b, rfl⟩ := hp
    exact .of_eq rfl
  | false =>
    simp only [Bool.false_eq_true, if_false]
    exact (findAllMatches_rel hm hx hp cfg input).bind fun a b e => e ▸ .of_eq rfl

theorem collectSeq_rel {α β : Type} {f g : α → Res β} (h : ∀ a, Rel Eq (f a) (g a)) (l : List α) :
    Rel Eq (collectSeq f l) (collectSeq g l) :=
  rel_eq.mpr fun _ => collectSeq_congr fun a _ b => rel_eq.mp (h a) b

theorem collectAny_rel {α β : Type} {f g : α → Res β} (h : ∀ a, Rel Eq (f a) (g a)) (l : List α)
    (b b' : Bool) (is is' : List Nat) (hi : is.Perm (List.range l.length))
    (hi' : is'.Perm (List.range l.length)) :
    Rel Eq (if b then collectSeq f l else collectPar f is l)
      (if b' then collectSeq g l else collectPar g is' l) := by
  have one : ∀ (f : α → Res β) (b : Bool) (is : List Nat), is.Perm (List.range l.length) →
      Rel Eq (if b then collectSeq f l else collectPar f is l) (collectSeq f l) := by
    intro f b is hi
    cases b with
    | true => exact .of_eq rfl
    | false => exact rel_eq.mpr fun a => collectPar_perm hi
  exact (one f b is hi).trans_eq ((collectSeq_rel h l).trans_eq (one g b' is' hi').symm_eq)

theorem learnFrom_rel {m m' : Vm} {x x' : TextExt} {p p' : TextParams} (hm : SameVm m m')
    (hx : SameExt x x') (hp : SameParams p p') (cfg : TextConfig) (inputs : List (List Char))
    (strict : Bool) (o o' : Orders) :
    Rel SameLearned (m.learnFrom x cfg p inputs strict true o)
      (m'.learnFrom x' cfg p' inputs strict true o') := by
  have unf : ∀ (m : Vm) (x : TextExt) (p : TextParams) (o : Orders),
      m.learnFrom x cfg p inputs strict true o =
        (if p.singleThread then collectSeq (m.findForLearning x cfg p strict) inputs
          else collectPar (m.findForLearning x cfg p strict) (x.sched inputs.length) inputs) >>=
        fun all => m.learnVariants all.flatten true o := by
    intro m x p o
    unfold Vm.learnFrom
    cases p.singleThread <;> rfl
  rw [unf, unf]
  refine (collectAny_rel (fun a => findForLearning_rel hm hx hp cfg strict a) inputs _ _ _ _
    (x.sched_perm _) (x'.sched_perm _)).bind ?_
  rintro all _ rfl
  obtain ⟨s, rfl, hs⟩ := hm
  unfold Vm.learnVariants
  rw [learnLoop_sorted m s]
  cases m.learnLoop all.flatten none 0 with
  | error e => trivial
  | ok r =>
    obtain ⟨m1, c⟩ := r
    simp only [Except.map, bind, Except.bind, if_true, build_sorted]
    refine (build_rel m1 o o').bind (Q := SameLearned) ?_
    intro a b hab
    exact ⟨hab, rfl⟩

theorem learnRounds_rel {f g : Vm → Res (Vm × Nat)}
    (h : ∀ m m', SameVm m m' → Rel SameLearned (f m) (g m')) (n : Nat) {m m' : Vm} (hm : SameVm m m') :
    Rel (fun r r' => SameVm r.1 r'.1 ∧ r.2 = r'.2) (learnRounds f n m) (learnRounds g n m') := by
  induction n generalizing m m' with
  | zero => exact ⟨hm, rfl⟩
  | succ n ih =>
    simp only [learnRounds]
    refine (h m m' hm).bind ?_
    rintro ⟨m1, c⟩ ⟨m1', c'⟩ ⟨h1, h2⟩
    cases h2
    by_cases hc : c = 0
    · simp only [hc, if_true]
      exact ⟨h1, rfl⟩
    · simp only [hc, if_false]
      refine (ih h1).bind ?_
      rintro ⟨m2, cs⟩ ⟨m2', cs'⟩ ⟨h3, h4⟩
      cases h4
      exact ⟨h3, rfl⟩

/-! ## Output -/

section
variable (o : Printer) (s : HMap Nat (List Nat))

/-- The printer for the model with another order. -/
def resorted (o : Printer) (s : HMap Nat (List Nat)) : Printer :=
  { o with vm := { o.vm with sortedindex := s } }

theorem resultTsv_sorted : (resorted o s).resultTsv = o.resultTsv := rfl

theorem resultJson_sorted : (resorted o s).resultJson = o.resultJson := by
  funext r
  unfold Printer.resultJson
  have : (resorted o s).viaJson r.via = o.viaJson r.via := by cases r.via <;> rfl
  rw [this]
  rfl

theorem othersTsv_sorted (sel : Option Nat) (i : Nat) (rs : List VariantResult) :
    (resorted o s).othersTsv sel i rs = o.othersTsv sel i rs := by
  induction rs generalizing i with
  | nil => rfl
  | cons r rs ih => simp only [Printer.othersTsv, resultTsv_sorted, ih]

theorem othersJson_sorted (sel : Option Nat) (i : Nat) (w : Bool) (rs : List VariantResult) :
    (resorted o s).othersJson sel i w rs = o.othersJson sel i w rs := by
  induction rs generalizing i w with
  | nil => rfl
  | cons r rs ih => simp only [Printer.othersJson, resultJson_sorted, ih]

theorem matchesTsv_sorted : (resorted o s).matchesTsv = o.matchesTsv := by
  funext i v sel off
  cases v with
  | none => rfl
  | some v => simp only [Printer.matchesTsv, Printer.variantsTsv, othersTsv_sorted, resultTsv_sorted]

theorem tagsLoop_sorted (i : Nat) (l : List (Nat × Nat)) :
    (resorted o s).tagsLoop i l = o.tagsLoop i l := by
  induction l generalizing i with
  | nil => rfl
  | cons a l ih =>
    obtain ⟨t, n⟩ := a
    simp only [Printer.tagsLoop, ih]
    rfl

theorem matchesJson_sorted : (resorted o s).matchesJson = o.matchesJson := by
  funext i v sel off n t sq
  simp only [Printer.matchesJson, Printer.tagJson, tagsLoop_sorted]
  cases v with
  | none => rfl
  | some v =>
    simp only [Printer.tailJson, Printer.variantsJson, othersJson_sorted, resultJson_sorted]

theorem query_sorted : (resorted o s).query = o.query := by
  funext json i v n
  simp only [Printer.query, matchesTsv_sorted, matchesJson_sorted]

theorem found_sorted : (resorted o s).found = o.found := by
  funext json a n
  simp only [Printer.found, matchesTsv_sorted, matchesJson_sorted]

theorem process_rel {find find' : List Char → Res (List VariantResult)}
    (h : ∀ i, Rel Eq (find i) (find' i)) (json : Bool) (n : Nat) (lines : List (Option (List Char))) :
    Rel Eq (o.process find json n lines) ((resorted o s).process find' json n lines) := by
  induction lines generalizing n with
  | nil => exact .of_eq rfl
  | cons l lines ih =>
    cases l with
    | none => exact ih n
    | some l =>
      simp only [Printer.process, query_sorted]
      refine (h l).bind ?_
      rintro vs _ rfl
      refine .bind_same _ fun t => ?_
      refine (ih (n + 1)).bind ?_
      rintro a _ rfl
      exact .of_eq rfl

theorem printBatch_sorted (json : Bool) (n : Nat) (ps : List (List Char × List VariantResult)) :
    (resorted o s).printBatch json n ps = o.printBatch json n ps := by
  induction ps generalizing n with
  | nil => rfl
  | cons p ps ih =>
    obtain ⟨i, v⟩ := p
    simp only [Printer.printBatch, query_sorted, ih]

theorem parLoop_rel {find find' : List Char → Res (List VariantResult)}
    (h : ∀ i, Rel Eq (find i) (find' i)) {sched sched' : Nat → List Nat}
    (hs : ∀ n, (sched n).Perm (List.range n)) (hs' : ∀ n, (sched' n).Perm (List.range n))
    (json : Bool) (fuel n : Nat) (lines : List (Option (List Char))) :
    Rel Eq (o.parLoop find sched json fuel n lines)
      ((resorted o s).parLoop find' sched' json fuel n lines) := by
  induction fuel generalizing n lines with
  | zero => exact .of_eq rfl
  | succ fuel ih =>
    simp only [Printer.parLoop, printBatch_sorted]
    refine .bind_same _ ?_
    rintro ⟨batch, rest, eof⟩
    refine Rel.bind (R := Eq) ?_ ?_
    · refine collectAny_rel (f := fun input => do let vs ← find input; return (input, vs))
        (g := fun input => do let vs ← find' input; return (input, vs)) ?_ batch false false _ _ (hs _) (hs' _)
      intro a
      refine (h a).bind ?_
      rintro vs _ rfl
      exact .of_eq rfl
    · rintro out _ rfl
      refine .bind_same _ fun t => ?_
      cases eof with
      | true => exact .of_eq rfl
      | false =>
        simp only [Bool.false_eq_true, if_false]
        refine (ih _ _).bind ?_
        rintro a _ rfl
        exact .of_eq rfl

theorem foundAll_sorted (json : Bool) (n : Nat) (ms : List Match) :
    (resorted o s).foundAll json n ms = o.foundAll json n ms := by
  induction ms generalizing n with
  | nil => rfl
  | cons a ms ih => simp only [Printer.foundAll, found_sorted, ih]

theorem searchLoop_rel {find find' : List Char → Res (List Match)} (h : ∀ i, Rel Eq (find i) (find' i))
    (json : Bool) (n : Nat) (batches : List (List Char)) :
    Rel Eq (o.searchLoop find json n batches) ((resorted o s).searchLoop find' json n batches) := by
  induction batches generalizing n with
  | nil => exact .of_eq rfl
  | cons b batches ih =>
    simp only [Printer.searchLoop, foundAll_sorted]
    refine (h b).bind ?_
    rintro ms _ rfl
    refine .bind_same _ fun t => ?_
    refine (ih _).bind ?_
    rintro a _ rfl
    exact .of_eq rfl

theorem processSearch_rel {find find' : List Char → Res (List Match)} (h : ∀ i, Rel Eq (find i) (find' i))
    (json nl perLine : Bool) (lines : List (Option (List Char))) :
    Rel Eq (o.processSearch find json nl perLine lines)
      ((resorted o s).processSearch find' json nl perLine lines) := by
  unfold Printer.processSearch
  cases searchBatches (if nl then ' ' else '\n') perLine (lines.length + 1) lines with
  | none => trivial
  | some batches => exact searchLoop_rel o s h json 0 batches

theorem variantsOf_sorted (refs : List VariantReference) :
    (resorted o s).variantsOf refs = o.variantsOf refs := by
  induction refs with
  | nil => rfl
  | cons a refs ih =>
    cases a with
    | variantOf _ _ => exact ih
    | referenceFor id sc =>
      simp only [Printer.variantsOf, ih]
      rfl

theorem weightedTsv_sorted (items : List VocabValue) :
    (resorted o s).weightedTsv items = o.weightedTsv items := by
  induction items with
  | nil => rfl
  | cons a items ih =>
    simp only [Printer.weightedTsv, variantsOf_sorted, ih]
    rfl

theorem weightedJsonLoop_sorted (items : List VocabValue) :
    (resorted o s).weightedJsonLoop items = o.weightedJsonLoop items := by
  induction items with
  | nil => rfl
  | cons a items ih =>
    simp only [Printer.weightedJsonLoop, variantsOf_sorted, ih]
    rfl

theorem multiTsv_sorted (items : List VocabValue) :
    (resorted o s).multiTsv items = o.multiTsv items := by
  induction items with
  | nil => rfl
  | cons a items ih =>
    simp only [Printer.multiTsv, variantsOf_sorted, ih]
    rfl

theorem multiJsonLoop_sorted (items : List VocabValue) :
    (resorted o s).multiJsonLoop items = o.multiJsonLoop items := by
  induction items with
  | nil => rfl
  | cons a items ih =>
    simp only [Printer.multiJsonLoop, variantsOf_sorted, ih]
    rfl

theorem learned_sorted (json multi : Bool) : (resorted o s).learned json multi = o.learned json multi := by
  cases json <;> cases multi
  · simp only [Printer.learned, weightedTsv_sorted]; rfl
  · simp only [Printer.learned, multiTsv_sorted]; rfl
  · simp only [Printer.learned, Printer.weightedJson, weightedJsonLoop_sorted]; rfl
  · simp only [Printer.learned, Printer.multiJson, multiJsonLoop_sorted]; rfl

end

end Verif.Lemmas
